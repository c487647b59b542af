import Verif.Spec.WireExport
import Verif.Lemmas.WireAsm
import Verif.Props.Wire
/-!
# Exported data
-/
namespace Verif.Ex
open Pb (Val otlp marshal unmarshal encFields Schema Field Fits FieldsOk Ord valuesOf InOrder Utf8)
open Rq (vals entries vals_entries mem_entries getNum getTxt numVal txtVal bits32 int32 getNum_of getTxt_of)

variable {S : Schema}

theorem fits_mono (d : Nat) : ∀ {d' : Nat} {k : Pb.Kind} {v : Val}, d ≤ d' → Fits S d k v → Fits S d' k v := by
  induction d with
  | zero =>
    intro d' k v _ h
    cases v with
    | num n => exact Pb.fits_num (by cases k <;> simpa [Fits] using h)
    | bytes s => cases k <;> cases d' <;> simp_all [Fits]
    | nums l => cases d' <;> cases k <;> simp_all [Fits]
    | msg fs u => cases k <;> simp [Fits] at h
  | succ d ih =>
    intro d' k v hd h
    cases v with
    | num n => exact Pb.fits_num (by cases k <;> simpa [Fits] using h)
    | bytes s => cases k <;> cases d' <;> simp_all [Fits]
    | nums l => cases d' <;> cases k <;> simp_all [Fits]
    | msg fs u =>
      obtain ⟨e, rfl⟩ : ∃ e, d' = e + 1 := ⟨d' - 1, by omega⟩
      cases k with
      | msg t =>
        rw [Pb.fits_msg] at h ⊢
        refine ⟨⟨fun x hx => ?_, h.1.2⟩, h.2⟩
        obtain ⟨f, hf, hn, h1, h2⟩ := h.1.1 x hx
        exact ⟨f, hf, hn, h1, ih (by omega) h2⟩
      | _ => simp [Fits] at h

/-! ## Fields -/

theorem not_nums {d k : Nat} {v : Val} (h : Fits S d (.msg k) v) : (∀ l, v ≠ .nums l) ∧ ¬ v.Zero := by
  cases v with
  | msg fs u => exact ⟨nofun, nofun⟩
  | nums l =>
    exfalso
    have h : l ≠ [] ∧ ∀ n ∈ l, n < 0 := by cases d <;> exact h
    cases l with
    | nil => exact h.1 rfl
    | cons n l => exact absurd (h.2 n List.mem_cons_self) (by omega)
  | num n => exact absurd (show n < 0 from by cases d <;> exact h) (by omega)
  | bytes s => cases d <;> exact absurd h (by simp [Fits])

theorem good_num {d n : Nat} {f : Field} (hc : f.card = .implicit) (h : n < f.kind.range) : Good S d f (numVal n) :=
  have := Rq.numVal_fits (S := S) (d := d) f rfl hc h
  ⟨this.1, this.2.2⟩

theorem good_txt {d : Nat} {s : Bytes} {f : Field} (hc : f.card = .implicit) (hk : f.kind = .string) (h : Utf8 s) : Good S d f (txtVal s) :=
  have := Rq.txtVal_fits (S := S) (d := d) f hk hc h
  ⟨this.1, this.2.2⟩

theorem good_id {d : Nat} {o : Option Bytes} {f : Field} (hc : f.card = .implicit) (hk : f.kind = .bytes) (h : IdOk o) : Good S d f (optVal o) := by
  cases o with
  | none => exact ⟨fun _ => by simp [optVal], fun v hv => by simp [optVal] at hv⟩
  | some s =>
    refine ⟨fun _ => by simp [optVal], fun v hv => ?_⟩
    simp only [optVal, Option.map_some, Option.toList_some, List.mem_singleton] at hv
    subst hv
    refine ⟨⟨⟨fun h => (by rw [hc] at h; cases h), fun ⟨l, h⟩ => (by cases h)⟩, fun _ (e : s = []) => h (by rw [e])⟩, ?_⟩
    rw [hk]
    cases d <;> exact trivial

theorem good_msgs {d k : Nat} {l : List Val} {f : Field} (hc : f.card = .repeated) (hk : f.kind = .msg k) (h : ∀ v ∈ l, Fits S d (.msg k) v) : Good S d f l := by
  refine ⟨fun hn => absurd hc hn, fun v hv => ⟨⟨⟨fun e => (by rw [hc] at e; cases e), fun ⟨l, e⟩ => absurd e ((not_nums (h v hv)).1 l)⟩, fun _ => (not_nums (h v hv)).2⟩, ?_⟩⟩
  rw [hk]; exact h v hv

theorem good_msg {d k : Nat} {o : Option Val} {f : Field} (hc : f.card ≠ .packed) (hk : f.kind = .msg k) (h : ∀ v, o = some v → Fits S d (.msg k) v) :
    Good S d f o.toList := by
  cases o with
  | none => exact ⟨fun _ => by simp, fun v hv => by simp at hv⟩
  | some x =>
    refine ⟨fun _ => by simp, fun v hv => ?_⟩
    simp only [Option.toList_some, List.mem_singleton] at hv
    subst hv
    have hx := h v rfl
    refine ⟨⟨⟨fun e => absurd e hc, fun ⟨l, e⟩ => absurd e ((not_nums hx).1 l)⟩, fun _ => (not_nums hx).2⟩, ?_⟩
    rw [hk]; exact hx

/-! ## Messages with a rest -/

theorem restVal_of {d t : Nat} (hd : d ≤ 10000) {seen : List Nat} {rest : Bytes} (h : RestOk Short d t seen rest) :
    ∃ fs u, restVal t rest = .msg fs u ∧ Fits otlp d (.msg t) (.msg fs u) ∧ (∀ e ∈ fs, e.1 ∉ seen) ∧ rest = encFields otlp t fs ++ u := by
  obtain ⟨fs, u, h1, h2, h3, h4⟩ := h
  refine ⟨fs, u, ?_, h1, h4, ?_⟩
  · unfold restVal
    rw [Pb.C92_round_trip Pb.otlp_proper (fits_mono d hd h1) h2 h3]
    rfl
  · unfold marshal at h2
    simp only at h2
    split at h2
    · exact (Option.some.inj h2).symm
    · cases h2

theorem restOk_nil {d t : Nat} {seen : List Nat} : RestOk Short (d + 1) t seen [] :=
  ⟨[], [], Pb.fits_msg.2 ⟨⟨nofun, .nil⟩, .nil⟩, rfl, (by decide : (0 : Nat) < 2 ^ 64), nofun⟩

theorem vals_build {t n : Nat} {l : List (Nat × List Val)} {rest : Bytes} {vs : List Val} (hf : (otlp t).any (fun f => f.num = n) = true) (h : these l n = some vs) :
    vals n (build t l rest) = vs := by
  rw [List.any_eq_true] at hf
  obtain ⟨f, hf, hn⟩ := hf
  have hn : f.num = n := by simpa using hn
  subst hn
  unfold build
  rw [vals_asm Pb.otlp_proper hf, h]
  rfl

theorem these_mem {l : List (Nat × List Val)} {n : Nat} {vs : List Val} (h : these l n = some vs) : (n, vs) ∈ l := by
  unfold these at h
  rw [Option.map_eq_some_iff] at h
  obtain ⟨e, he, rfl⟩ := h
  have h1 := List.mem_of_find?_eq_some he
  have h2 : e.1 = n := by simpa using List.find?_some he
  rw [← h2]; exact h1

theorem these_none {l : List (Nat × List Val)} {n : Nat} (h : n ∉ l.map (·.1)) : these l n = none := by
  unfold these
  rw [List.find?_eq_none.2]
  · rfl
  · intro e he hn
    exact h (List.mem_map.2 ⟨e, he, by simpa using hn⟩)

theorem these_some {l : List (Nat × List Val)} {n : Nat} (h : n ∈ l.map (·.1)) : ∃ vs, these l n = some vs := by
  unfold these
  cases hx : l.find? fun e => e.1 = n with
  | some e => exact ⟨e.2, rfl⟩
  | none =>
    obtain ⟨e, he, rfl⟩ := List.mem_map.1 h
    exact absurd (List.find?_eq_none.1 hx e he) (by simp)

theorem filter_entries (p : Nat → Bool) (parts : List (Field × List Val)) :
    (entries parts).filter (fun e => p e.1) = entries (parts.map fun q => (q.1, if p q.1.num then q.2 else [])) := by
  unfold entries
  induction parts with
  | nil => rfl
  | cons q ps ih =>
    rw [List.flatMap_cons, List.filter_append, ih, List.map_cons, List.flatMap_cons]
    congr 1
    cases hp : p q.1.num with
    | true => rw [List.filter_eq_self.2]; · rfl
              · intro e he; obtain ⟨v, -, rfl⟩ := List.mem_map.1 he; exact hp
    | false => rw [List.filter_eq_nil_iff.2]; · rfl
               · intro e he; obtain ⟨v, -, rfl⟩ := List.mem_map.1 he; simp [hp]

theorem restOf_build {d t : Nat} (hd : d + 1 ≤ 10000) {l : List (Nat × List Val)} {seen : List Nat} {rest : Bytes} (hs : l.map (·.1) = seen)
    (h : RestOk Short (d + 1) t seen rest) : restOf t seen (build t l rest) = rest := by
  obtain ⟨fs, u, hr, h1, h2, h3⟩ := restVal_of hd h
  unfold restOf build asm
  rw [hr]
  simp only [fieldsOf, unknownOf]
  rw [filter_entries (fun n => !seen.contains n), List.map_map]
  have hb := body_entries Pb.otlp_proper (Pb.fits_msg.1 h1).1 u
  have he : ((otlp t).map ((fun q : Field × List Val => (q.1, if (!seen.contains q.1.num) = true then q.2 else [])) ∘
      fun f => (f, (these l f.num).getD (vals f.num (.msg fs u))))) = (otlp t).map fun f => (f, vals f.num (.msg fs u)) := by
    refine List.map_congr_left fun f hf => ?_
    simp only [Function.comp]
    by_cases hm : f.num ∈ seen
    · have hv : vals f.num (.msg fs u) = [] := by
        rw [List.eq_nil_iff_forall_not_mem]
        intro v hv
        exact h2 _ (mem_vals.1 hv) hm
      simp [hm, hv]
    · rw [these_none (by rw [hs]; exact hm)]
      simp [hm]
  rw [he, hb, ← h3]

/-- No field that is given is a member of a oneof. -/
def noOne (t : Nat) (nums : List Nat) : Bool := (otlp t).all fun f => match f.card with | .oneof _ => !nums.contains f.num | _ => true

theorem fits_build {d t : Nat} (hd : d + 1 ≤ 10000) {l : List (Nat × List Val)} {seen : List Nat} {rest : Bytes} (hs : l.map (·.1) = seen)
    (h : RestOk Short (d + 1) t seen rest) (ho : noOne t seen = true) (hg : ∀ p ∈ l, ∀ f ∈ otlp t, f.num = p.1 → Good otlp d f p.2) :
    Fits otlp (d + 1) (.msg t) (build t l rest) := by
  obtain ⟨fs, u, hr, h1, h2, h3⟩ := restVal_of hd h
  unfold build
  rw [hr]
  have no : ∀ f ∈ otlp t, ∀ o, f.card = .oneof o → these l f.num = none := by
    intro f hf o hc
    unfold noOne at ho
    rw [List.all_eq_true] at ho
    have := ho f hf
    rw [hc] at this
    refine these_none ?_
    rw [hs]
    simpa using this
  refine fits_asm Pb.otlp_proper h1 (fun f hf vs hv => hg _ (these_mem hv) f hf rfl) fun f hf g hg' o _ c1 c2 => ?_
  rw [no f hf o c1, no g hg' o c2]
  exact ⟨rfl, nofun⟩

end Verif.Ex
