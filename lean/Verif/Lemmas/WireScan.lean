import Verif.Spec.WireScan
import Verif.Lemmas.WireDecode2
import Verif.Props.Wire
/-!
# Requests
-/
namespace Verif.Rq
open Pb (Val Schema fld opt rep alt Field Fits FieldsOk Ord valuesOf Utf8)
open Tm (ScanTime defaultRange)

theorem rq_small : ∀ t < 6, Pb.properFields (rq t) = true := by decide +kernel

theorem rq_proper : rq.Proper := Pb.proper_of fun t => by
  by_cases h : t < 6
  · exact rq_small t h
  · obtain ⟨k, rfl⟩ := Nat.exists_eq_add_of_le (Nat.le_of_not_lt h)
    rw [Nat.add_comm, show rq (k + 6) = [] from rfl]
    rfl

theorem mem_entries {parts : List (Field × List Val)} {e : Nat × Val} : e ∈ entries parts ↔ ∃ p ∈ parts, ∃ v ∈ p.2, (p.1.num, v) = e := by
  unfold entries
  simp

theorem entries_ok {S : Schema} {d t : Nat} {parts : List (Field × List Val)} (hp : parts.map (·.1) = S t)
    (h : ∀ p ∈ parts, (p.1.card ≠ .repeated → p.2.length ≤ 1) ∧ (∀ o, p.1.card ≠ .oneof o) ∧ ∀ v ∈ p.2, p.1.Takes v ∧ Fits S d p.1.kind v) :
    FieldsOk S d t (entries parts) := by
  refine ⟨?_, ?_⟩
  · intro e he
    obtain ⟨p, hp', v, hv, rfl⟩ := mem_entries.1 he
    obtain ⟨-, -, h2⟩ := h p hp'
    exact ⟨p.1, by rw [← hp]; exact List.mem_map_of_mem hp', rfl, (h2 v hv).1, (h2 v hv).2⟩
  · have idx : ∀ (i : Nat) p, parts[i]? = some p → (S t)[i]? = some p.1 := by
      intro i p hi
      rw [← hp, List.getElem?_map, hi]; rfl
    unfold Pb.InOrder entries
    rw [List.pairwise_flatMap]
    constructor
    · intro p hp'
      obtain ⟨h1, hno, -⟩ := h p hp'
      by_cases hc : p.1.card = .repeated
      · obtain ⟨i, hi⟩ := List.mem_iff_getElem?.1 hp'
        rw [List.pairwise_map]
        refine List.pairwise_of_forall fun v w => ?_
        exact ⟨i, i, p.1, p.1, idx i p hi, idx i p hi, rfl, rfl, .inr ⟨rfl, hc⟩, fun o ho => absurd ho (hno o)⟩
      · have := h1 hc
        match hq : p.2, this with
        | [], _ => exact .nil
        | [v], _ => simp
    · rw [List.pairwise_iff_getElem]
      intro i j hi hj hij x hx y hy
      obtain ⟨v, -, rfl⟩ := List.mem_map.1 hx
      obtain ⟨w, -, rfl⟩ := List.mem_map.1 hy
      refine ⟨i, j, parts[i].1, parts[j].1, idx i _ (List.getElem?_eq_getElem hi), idx j _ (List.getElem?_eq_getElem hj), rfl, rfl, .inl hij, fun o ho => ?_⟩
      exact absurd ho ((h _ (List.getElem_mem hi)).2.1 o)

/-- The values of a field of a message that is built. -/
theorem vals_entries (n : Nat) (parts : List (Field × List Val)) (u : Bytes) :
    vals n (.msg (entries parts) u) = (parts.filter fun p => p.1.num = n).flatMap (·.2) := by
  unfold vals entries
  simp only
  induction parts with
  | nil => rfl
  | cons p ps ih =>
    rw [List.flatMap_cons, List.filter_append, List.map_append, ih, List.filter_cons]
    by_cases hn : p.1.num = n
    · rw [List.filter_eq_self.2 (by simp [hn])]
      simp [hn, Function.comp_def]
    · rw [List.filter_eq_nil_iff.2 (by simp [hn])]
      simp [hn]

/-! ## Numbers and texts -/

theorem numVal_fits {S : Schema} {d n : Nat} {k : Pb.Kind} (f : Field) (hk : f.kind = k) (hc : f.card = .implicit) (h : n < k.range) :
    (f.card ≠ .repeated → (numVal n).length ≤ 1) ∧ (∀ o, f.card ≠ .oneof o) ∧ ∀ v ∈ numVal n, f.Takes v ∧ Fits S d f.kind v := by
  unfold numVal
  refine ⟨fun _ => (by split <;> simp), fun o h => (by rw [hc] at h; cases h), fun v hv => ?_⟩
  split at hv
  · cases hv
  · rename_i hn
    rw [List.mem_singleton] at hv
    subst hv
    refine ⟨⟨⟨fun h => (by rw [hc] at h; cases h), fun ⟨l, h⟩ => (by cases h)⟩, fun _ => hn⟩, ?_⟩
    rw [hk]; exact Pb.fits_num h

theorem txtVal_fits {S : Schema} {d : Nat} {s : Bytes} (f : Field) (hk : f.kind = .string) (hc : f.card = .implicit) (h : Utf8 s) :
    (f.card ≠ .repeated → (txtVal s).length ≤ 1) ∧ (∀ o, f.card ≠ .oneof o) ∧ ∀ v ∈ txtVal s, f.Takes v ∧ Fits S d f.kind v := by
  unfold txtVal
  refine ⟨fun _ => (by split <;> simp), fun o h => (by rw [hc] at h; cases h), fun v hv => ?_⟩
  split at hv
  · cases hv
  · rename_i hn
    rw [List.mem_singleton] at hv
    subst hv
    refine ⟨⟨⟨fun h => (by rw [hc] at h; cases h), fun ⟨l, h⟩ => (by cases h)⟩, fun _ => hn⟩, ?_⟩
    rw [hk]; cases d <;> exact h

theorem optVal_fits {S : Schema} {d t : Nat} {α : Type} (f : Field) (hk : f.kind = .msg t) (hc : f.card = .optional) {o : Option α} {g : α → Val}
    (hg : ∀ a, o = some a → Fits S d (.msg t) (g a) ∧ ∀ l, g a ≠ .nums l) :
    (f.card ≠ .repeated → (o.toList.map g).length ≤ 1) ∧ (∀ o, f.card ≠ .oneof o) ∧ ∀ v ∈ o.toList.map g, f.Takes v ∧ Fits S d f.kind v := by
  refine ⟨fun _ => (by cases o <;> simp), fun o h => (by rw [hc] at h; cases h), fun v hv => ?_⟩
  obtain ⟨a, ha, rfl⟩ := List.mem_map.1 hv
  obtain ⟨h1, h2⟩ := hg a (by simpa using ha)
  refine ⟨⟨⟨fun h => (by rw [hc] at h; cases h), fun ⟨l, h⟩ => absurd h (h2 l)⟩, fun h => (by rw [hc] at h; cases h)⟩, ?_⟩
  rw [hk]; exact h1

theorem bits32_lt (i : Int) : bits32 i < 2 ^ 32 := by unfold bits32; omega
theorem bits64_lt (i : Int) : bits64 i < 2 ^ 64 := by unfold bits64; omega

theorem int32_bits {i : Int} (h : -2 ^ 31 ≤ i ∧ i < 2 ^ 31) : int32 (bits32 i) = i := by
  unfold int32 bits32
  split <;> omega

theorem int64_bits {i : Int} (h : -2 ^ 63 ≤ i ∧ i < 2 ^ 63) : int64 (bits64 i) = i := by
  unfold int64 bits64
  split <;> omega

theorem getNum_of {n k : Nat} {v : Val} (h : vals n v = numVal k) : getNum n v = k := by
  unfold getNum numVal at *
  rw [h]
  by_cases h0 : k = 0
  · simp [h0]
  · simp [h0]

theorem getTxt_of {n : Nat} {s : Bytes} {v : Val} (h : vals n v = txtVal s) : getTxt n v = s := by
  unfold getTxt txtVal at *
  rw [h]
  by_cases h0 : s = []
  · simp [h0]
  · simp [h0]

/-! ## Messages of a request -/

theorem stamp_fits {d : Nat} (s : Stamp) : Fits rq (d + 1) (.msg 5) (ofStamp s) := by
  unfold ofStamp
  rw [Pb.fits_msg]
  refine ⟨entries_ok rfl ?_, .nil⟩
  intro p hp
  simp only [List.mem_cons, List.not_mem_nil, or_false] at hp
  rcases hp with rfl | rfl
  · exact numVal_fits _ rfl rfl (bits64_lt _)
  · exact numVal_fits _ rfl rfl (bits32_lt _)

theorem stamp_msg (s : Stamp) : ∀ l, ofStamp s ≠ .nums l := by intro l; unfold ofStamp; nofun

theorem toStamp_of {s : Stamp} (h : s.Ok) : toStamp (ofStamp s) = s := by
  have h1 : getNum 1 (ofStamp s) = bits64 s.seconds := getNum_of (by unfold ofStamp; rw [vals_entries]; simp [fld])
  have h2 : getNum 2 (ofStamp s) = bits32 s.nanos := getNum_of (by unfold ofStamp; rw [vals_entries]; simp [fld])
  unfold toStamp
  rw [h1, h2, int64_bits h.1, int32_bits h.2]

theorem one_fits {d n k : Nat} {v : Val} (hf : alt n (.msg k) ∈ rq 1) (hn : ∀ l, v ≠ .nums l) (hv : Fits rq d (.msg k) v) :
    Fits rq (d + 1) (.msg 1) (.msg [(n, v)] []) := by
  rw [Pb.fits_msg]
  refine ⟨⟨?_, Pb.one_order _⟩, .nil⟩
  intro e he
  rw [List.mem_singleton] at he
  subst he
  exact ⟨_, hf, rfl, ⟨⟨nofun, fun ⟨l, h⟩ => absurd h (hn l)⟩, nofun⟩, hv⟩

theorem filter_fits {d : Nat} {f : St.Filter} (h : FilterOk f) : Fits rq (d + 2) (.msg 1) (ofFilter f) := by
  cases f with
  | base p v =>
    refine one_fits (k := 2) (by decide) nofun ?_
    rw [Pb.fits_msg]
    refine ⟨entries_ok rfl ?_, .nil⟩
    intro q hq
    simp only [List.mem_cons, List.not_mem_nil, or_false] at hq
    rcases hq with rfl | rfl
    · exact numVal_fits _ rfl rfl (bits32_lt _)
    · exact txtVal_fits _ rfl rfl h.2
  | attr p k v =>
    refine one_fits (k := 3) (by decide) nofun ?_
    rw [Pb.fits_msg]
    refine ⟨entries_ok rfl ?_, .nil⟩
    intro q hq
    simp only [List.mem_cons, List.not_mem_nil, or_false] at hq
    rcases hq with rfl | rfl | rfl
    · exact numVal_fits _ rfl rfl (bits32_lt _)
    · exact txtVal_fits _ rfl rfl h.2.1
    · exact txtVal_fits _ rfl rfl h.2.2
  | unset =>
    rw [ofFilter, Pb.fits_msg]
    exact ⟨⟨by simp, .nil⟩, .nil⟩

theorem filter_msg (f : St.Filter) : ∀ l, ofFilter f ≠ .nums l := by intro l; cases f <;> nofun

theorem toFilter_of {f : St.Filter} (h : FilterOk f) : toFilter (ofFilter f) = f := by
  cases f with
  | base p v =>
    have h1 : ∀ m, vals 1 (.msg [(1, m)] []) = [m] := fun m => by simp [vals]
    unfold toFilter ofFilter
    simp only [h1]
    rw [getNum_of (k := bits32 p) (by rw [vals_entries]; simp [fld]), getTxt_of (s := v) (by rw [vals_entries]; simp [fld]), int32_bits h.1]
  | attr p k v =>
    have h1 : ∀ m, vals 1 (.msg [(2, m)] []) = [] := fun m => by simp [vals]
    have h2 : ∀ m, vals 2 (.msg [(2, m)] []) = [m] := fun m => by simp [vals]
    unfold toFilter ofFilter
    simp only [h1, h2]
    rw [getNum_of (k := bits32 p) (by rw [vals_entries]; simp [fld]), getTxt_of (n := 2) (s := k) (by rw [vals_entries]; simp [fld]),
      getTxt_of (n := 3) (s := v) (by rw [vals_entries]; simp [fld]), int32_bits h.1]
  | unset => rfl

theorem range_fits {d : Nat} (p : Option Stamp × Option Stamp) : Fits rq (d + 2) (.msg 4) (ofRange p) := by
  unfold ofRange
  rw [Pb.fits_msg]
  refine ⟨entries_ok rfl ?_, .nil⟩
  intro q hq
  simp only [List.mem_cons, List.not_mem_nil, or_false] at hq
  rcases hq with rfl | rfl
  · exact optVal_fits _ rfl rfl fun a _ => ⟨stamp_fits a, stamp_msg a⟩
  · exact optVal_fits _ rfl rfl fun a _ => ⟨stamp_fits a, stamp_msg a⟩

theorem toStamps_of {o : Option Stamp} (h : ∀ s, o = some s → s.Ok) : (o.toList.map ofStamp).head?.map toStamp = o := by
  cases o with
  | none => rfl
  | some s => simp [toStamp_of (h s rfl)]

theorem toRange_of {p : Option Stamp × Option Stamp} (h1 : ∀ s, p.1 = some s → s.Ok) (h2 : ∀ s, p.2 = some s → s.Ok) : toRange (ofRange p) = p := by
  unfold toRange
  have e1 : vals 1 (ofRange p) = p.1.toList.map ofStamp := by unfold ofRange; rw [vals_entries]; simp [opt]
  have e2 : vals 2 (ofRange p) = p.2.toList.map ofStamp := by unfold ofRange; rw [vals_entries]; simp [opt]
  rw [e1, e2, toStamps_of h1, toStamps_of h2]

theorem req_fits {d : Nat} {r : Req} (h : r.Ok) : Fits rq (d + 3) (.msg 0) (ofReq r) := by
  unfold ofReq
  rw [Pb.fits_msg]
  refine ⟨entries_ok rfl ?_, .nil⟩
  intro q hq
  simp only [List.mem_cons, List.not_mem_nil, or_false] at hq
  rcases hq with rfl | rfl | rfl | rfl | rfl | rfl | rfl
  · exact numVal_fits _ rfl rfl (bits32_lt _)
  · exact optVal_fits _ rfl rfl fun a _ => ⟨range_fits a, by intro l; unfold ofRange; nofun⟩
  · refine ⟨fun h => absurd rfl h, nofun, fun v hv => ?_⟩
    obtain ⟨f, hf, rfl⟩ := List.mem_map.1 hv
    exact ⟨⟨⟨nofun, fun ⟨l, h⟩ => absurd h (filter_msg f l)⟩, nofun⟩, filter_fits (h.filters f hf)⟩
  · exact numVal_fits _ rfl rfl h.limit
  · exact numVal_fits (k := .bool) _ rfl rfl (by cases r.reverse <;> decide)
  · exact optVal_fits _ rfl rfl fun a _ => ⟨stamp_fits a, stamp_msg a⟩
  · exact optVal_fits _ rfl rfl fun a _ => ⟨stamp_fits a, stamp_msg a⟩

theorem toReq_of {r : Req} (h : r.Ok) : toReq (ofReq r) = r := by
  obtain ⟨scope, range, filters, limit, reverse, now, offset⟩ := r
  unfold toReq
  have e1 : getNum 1 (ofReq ⟨scope, range, filters, limit, reverse, now, offset⟩) = bits32 scope := getNum_of (by unfold ofReq; rw [vals_entries]; simp [fld, opt, rep])
  have e2 : vals 2 (ofReq ⟨scope, range, filters, limit, reverse, now, offset⟩) = range.toList.map ofRange := by unfold ofReq; rw [vals_entries]; simp [fld, opt, rep]
  have e3 : vals 3 (ofReq ⟨scope, range, filters, limit, reverse, now, offset⟩) = filters.map ofFilter := by unfold ofReq; rw [vals_entries]; simp [fld, opt, rep]
  have e4 : getNum 4 (ofReq ⟨scope, range, filters, limit, reverse, now, offset⟩) = limit := getNum_of (by unfold ofReq; rw [vals_entries]; simp [fld, opt, rep])
  have e5 : getNum 5 (ofReq ⟨scope, range, filters, limit, reverse, now, offset⟩) = if reverse then 1 else 0 := getNum_of (by unfold ofReq; rw [vals_entries]; simp [fld, opt, rep])
  have e6 : vals 6 (ofReq ⟨scope, range, filters, limit, reverse, now, offset⟩) = now.toList.map ofStamp := by unfold ofReq; rw [vals_entries]; simp [fld, opt, rep]
  have e7 : vals 7 (ofReq ⟨scope, range, filters, limit, reverse, now, offset⟩) = offset.toList.map ofStamp := by unfold ofReq; rw [vals_entries]; simp [fld, opt, rep]
  rw [e1, e2, e3, e4, e5, e6, e7, int32_bits h.scope, toStamps_of h.now, toStamps_of h.offset]
  congr 1
  · cases range with
    | none => rfl
    | some p =>
      obtain ⟨h1, h2⟩ := h.range p.1 p.2 rfl
      simp [toRange_of h1 h2]
  · rw [List.map_map]
    conv_rhs => rw [← List.map_id filters]
    exact List.map_congr_left fun f hf => toFilter_of (h.filters f hf)
  · cases reverse <;> rfl

end Verif.Rq
