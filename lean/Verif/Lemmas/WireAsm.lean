import Verif.Model.WireExport
import Verif.Lemmas.WireDecode3
import Verif.Lemmas.WireScan
/-!
# Messages that are put together
-/
namespace Verif.Ex
open Pb (Val otlp marshal unmarshal encFields Schema Field Fits FieldsOk Ord valuesOf InOrder)
open Rq (vals entries vals_entries mem_entries)

variable {S : Schema}

theorem filter_num (hS : S.Proper) {t : Nat} {f : Field} (hf : f ∈ S t) {α : Type} (g : Field → α) :
    (((S t).map fun f => (f, g f)).filter fun p => p.1.num = f.num) = [(f, g f)] := by
  have hd := hS.differ t
  generalize S t = l at *
  induction l with
  | nil => cases hf
  | cons x l ih =>
    obtain ⟨h1, h2⟩ := List.pairwise_cons.1 hd
    rw [List.map_cons, List.filter_cons]
    rcases List.mem_cons.1 hf with rfl | hf
    · rw [if_pos (by simp), List.filter_eq_nil_iff.2]
      intro p hp
      obtain ⟨y, hy, rfl⟩ := List.mem_map.1 hp
      simpa using fun e => h1 y hy e.symm
    · rw [if_neg (by simpa using h1 f hf), ih hf h2]

/-- The values of a field of the message. -/
theorem vals_asm (hS : S.Proper) {t : Nat} {f : Field} (hf : f ∈ S t) (mine : Nat → Option (List Val)) (R : Val) :
    vals f.num (asm S t mine R) = (mine f.num).getD (vals f.num R) := by
  unfold asm
  rw [vals_entries, filter_num hS hf (fun f => (mine f.num).getD (vals f.num R))]
  simp

/-- A field that is no list has at most one value. -/
theorem vals_one (hS : S.Proper) {t : Nat} {f : Field} (hf : f ∈ S t) {fs : List (Nat × Val)} {u : Bytes} (h : InOrder S t fs) (hc : f.card ≠ .repeated) :
    (vals f.num (.msg fs u)).length ≤ 1 := by
  unfold vals
  simp only [List.length_map]
  have hp := List.Pairwise.filter (fun e => decide (e.1 = f.num)) h
  have hm : ∀ x ∈ fs.filter (fun e => decide (e.1 = f.num)), x.1 = f.num := fun x hx => by simpa using (List.mem_filter.1 hx).2
  generalize fs.filter (fun e => decide (e.1 = f.num)) = l at hp hm ⊢
  match l, hp, hm with
  | [], _, _ => simp
  | [_], _, _ => simp
  | x :: y :: r, hp, hm =>
    exfalso
    obtain ⟨i, j, g, g', hi, hj, hx, hy, ho, -⟩ := (List.pairwise_cons.1 hp).1 y List.mem_cons_self
    have mx := hm x List.mem_cons_self
    have my := hm y (List.mem_cons_of_mem _ List.mem_cons_self)
    have e1 := Pb.place_of hS hi
    have e2 := Pb.place_of hS hj
    rw [hx, mx] at e1
    rw [hy, my] at e2
    have : g = f := Pb.same_field hS (List.mem_of_getElem? hi) hf (hx.trans mx)
    subst this
    rcases ho with ho | ⟨-, ho⟩
    · omega
    · exact hc ho

theorem mem_vals {n : Nat} {fs : List (Nat × Val)} {u : Bytes} {v : Val} : v ∈ vals n (.msg fs u) ↔ (n, v) ∈ fs := by
  unfold vals
  simp only [List.mem_map, List.mem_filter, decide_eq_true_eq]
  constructor
  · rintro ⟨e, ⟨he, hn⟩, rfl⟩
    rw [← hn]; exact he
  · intro h
    exact ⟨_, ⟨h, rfl⟩, rfl⟩

/-- No two members of a oneof are set. -/
theorem one_member (hS : S.Proper) {t : Nat} {f g : Field} (hf : f ∈ S t) (hg : g ∈ S t) (hn : f.num ≠ g.num) {o : Nat} (cf : f.card = .oneof o) (cg : g.card = .oneof o)
    {fs : List (Nat × Val)} {u : Bytes} (h : InOrder S t fs) {v w : Val} (hv : v ∈ vals f.num (.msg fs u)) (hw : w ∈ vals g.num (.msg fs u)) : False := by
  have key : ∀ x ∈ fs, ∀ y ∈ fs, x ≠ y → ∀ f ∈ S t, ∀ g ∈ S t, f.num = x.1 → g.num = y.1 → ∀ o, ¬ (f.card = .oneof o ∧ g.card = .oneof o) := by
    intro x hx y hy hxy
    have hp : fs.Pairwise fun x y => ∀ f ∈ S t, ∀ g ∈ S t, f.num = x.1 → g.num = y.1 → ∀ o, ¬ (f.card = .oneof o ∧ g.card = .oneof o) := by
      refine List.Pairwise.imp ?_ h
      rintro x y ⟨i, j, f', g', hi, hj, hx, hy, -, ho⟩ f hf g hg h1 h2 o ⟨c1, c2⟩
      have e1 : f' = f := Pb.same_field hS (List.mem_of_getElem? hi) hf (hx.trans h1.symm)
      have e2 : g' = g := Pb.same_field hS (List.mem_of_getElem? hj) hg (hy.trans h2.symm)
      subst e1 e2
      exact ho o c1 c2
    rw [List.pairwise_iff_getElem] at hp
    obtain ⟨i, hi, rfl⟩ := List.mem_iff_getElem.1 hx
    obtain ⟨j, hj, rfl⟩ := List.mem_iff_getElem.1 hy
    rcases Nat.lt_trichotomy i j with hij | rfl | hij
    · exact hp i j hi hj hij
    · exact absurd rfl hxy
    · exact fun f hf g hg h1 h2 o ⟨c1, c2⟩ => hp j i hj hi hij g hg f hf h2 h1 o ⟨c2, c1⟩
  exact key (f.num, v) (mem_vals.1 hv) (g.num, w) (mem_vals.1 hw) (fun e => hn (congrArg Prod.fst e)) f hf g hg rfl rfl o ⟨cf, cg⟩

/-- What is asked of the values of a field. -/
def Good (S : Schema) (d : Nat) (f : Field) (l : List Val) : Prop := (f.card ≠ .repeated → l.length ≤ 1) ∧ ∀ v ∈ l, f.Takes v ∧ Fits S d f.kind v

theorem fits_asm (hS : S.Proper) {d t : Nat} {mine : Nat → Option (List Val)} {fs : List (Nat × Val)} {u : Bytes}
    (hR : Fits S (d + 1) (.msg t) (.msg fs u)) (h : ∀ f ∈ S t, ∀ l, mine f.num = some l → Good S d f l)
    (ho : ∀ f ∈ S t, ∀ g ∈ S t, ∀ o, f.num ≠ g.num → f.card = .oneof o → g.card = .oneof o → (mine f.num).isSome = (mine g.num).isSome ∧
      ∀ l l', mine f.num = some l → mine g.num = some l' → l = [] ∨ l' = []) : Fits S (d + 1) (.msg t) (asm S t mine (.msg fs u)) := by
  rw [Pb.fits_msg] at hR
  obtain ⟨⟨hR1, hR2⟩, hu⟩ := hR
  have good : ∀ f ∈ S t, Good S d f ((mine f.num).getD (vals f.num (.msg fs u))) := by
    intro f hf
    cases hm : mine f.num with
    | some l => exact h f hf l hm
    | none =>
      refine ⟨vals_one (u := u) hS hf hR2, fun v hv => ?_⟩
      obtain ⟨g, hg, hn, h1, h2⟩ := hR1 _ ((mem_vals (u := u)).1 hv)
      have := Pb.same_field hS hg hf hn
      subst this
      exact ⟨h1, h2⟩
  unfold asm
  rw [Pb.fits_msg]
  refine ⟨⟨?_, ?_⟩, hu⟩
  · intro e he
    obtain ⟨p, hp, v, hv, rfl⟩ := mem_entries.1 he
    obtain ⟨f, hf, rfl⟩ := List.mem_map.1 hp
    obtain ⟨h1, h2⟩ := (good f hf).2 v hv
    exact ⟨f, hf, rfl, h1, h2⟩
  · have idx : ∀ (i : Nat) p, ((S t).map fun f => (f, (mine f.num).getD (vals f.num (.msg fs u))))[i]? = some p →
        (S t)[i]? = some p.1 ∧ p.2 = (mine p.1.num).getD (vals p.1.num (.msg fs u)) := by
      intro i p hi
      rw [List.getElem?_map, Option.map_eq_some_iff] at hi
      obtain ⟨f, h1, rfl⟩ := hi
      exact ⟨h1, rfl⟩
    unfold InOrder entries
    rw [List.pairwise_flatMap]
    constructor
    · intro p hp
      obtain ⟨i, hi⟩ := List.mem_iff_getElem?.1 hp
      obtain ⟨hi1, hi2⟩ := idx i p hi
      obtain ⟨h1, -⟩ := good p.1 (List.mem_of_getElem? hi1)
      rw [← hi2] at h1
      by_cases hc : p.1.card = .repeated
      · rw [List.pairwise_map]
        refine List.pairwise_of_forall fun v w => ?_
        exact ⟨i, i, p.1, p.1, hi1, hi1, rfl, rfl, .inr ⟨rfl, hc⟩, fun o ho => by rw [hc] at ho; cases ho⟩
      · have := h1 hc
        match hq : p.2, this with
        | [], _ => exact .nil
        | [v], _ => simp
    · rw [List.pairwise_iff_getElem]
      intro i j hi hj hij x hx y hy
      obtain ⟨v, hv, rfl⟩ := List.mem_map.1 hx
      obtain ⟨w, hw, rfl⟩ := List.mem_map.1 hy
      obtain ⟨a1, a2⟩ := idx i _ (List.getElem?_eq_getElem hi)
      obtain ⟨b1, b2⟩ := idx j _ (List.getElem?_eq_getElem hj)
      refine ⟨i, j, _, _, a1, b1, rfl, rfl, .inl hij, fun o ca cb => ?_⟩
      have ma := List.mem_of_getElem? a1
      have mb := List.mem_of_getElem? b1
      have hn : ((S t).map fun f => (f, (mine f.num).getD (vals f.num (.msg fs u))))[i].1.num ≠
          ((S t).map fun f => (f, (mine f.num).getD (vals f.num (.msg fs u))))[j].1.num := by
        intro e
        have e1 := Pb.place_of hS a1
        have e2 := Pb.place_of hS b1
        rw [e] at e1
        omega
      obtain ⟨o1, o2⟩ := ho _ ma _ mb o hn ca cb
      rw [a2] at hv
      rw [b2] at hw
      generalize ((S t).map fun f => (f, (mine f.num).getD (vals f.num (.msg fs u))))[i].1 = f at *
      generalize ((S t).map fun f => (f, (mine f.num).getD (vals f.num (.msg fs u))))[j].1 = g at *
      cases hf : mine f.num with
      | some l =>
        cases hg : mine g.num with
        | some l' =>
          rw [hf] at hv
          rw [hg] at hw
          rcases o2 l l' hf hg with rfl | rfl
          · cases hv
          · cases hw
        | none => rw [hf, hg] at o1; cases o1
      | none =>
        cases hg : mine g.num with
        | some l' => rw [hf, hg] at o1; cases o1
        | none =>
          rw [hf] at hv
          rw [hg] at hw
          exact one_member (u := u) hS ma mb hn ca cb hR2 hv hw

/-- A message is its fields, one after the other. -/
theorem body_entries (hS : S.Proper) {d t : Nat} {fs : List (Nat × Val)} (h : FieldsOk S d t fs) (u : Bytes) :
    entries ((S t).map fun f => (f, vals f.num (.msg fs u))) = fs := by
  have hok : Fits S (d + 1) (.msg t) (asm S t (fun _ => none) (.msg fs [])) :=
    fits_asm hS (Pb.fits_msg.2 ⟨h, .nil⟩) (fun _ _ _ h => by cases h) (fun _ _ _ _ _ _ _ _ => ⟨rfl, fun _ _ h => by cases h⟩)
  unfold asm at hok
  rw [Pb.fits_msg] at hok
  refine Pb.fields_inj hS (Pb.sorted_of hS hok.1) (Pb.sorted_of hS h) ?_ ?_ ?_
  · intro e he
    obtain ⟨f, hf, hn, -⟩ := hok.1.1 e he
    exact ⟨f, hf, hn⟩
  · intro e he
    obtain ⟨f, hf, hn, -⟩ := h.1 e he
    exact ⟨f, hf, hn⟩
  · intro f hf
    have := vals_entries f.num ((S t).map fun f => (f, vals f.num (.msg fs u))) []
    rw [filter_num hS hf] at this
    simpa [vals, valuesOf] using this

end Verif.Ex
