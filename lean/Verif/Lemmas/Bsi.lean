import Verif.Spec.Bsi
import Verif.Lemmas.Rows5
/-!
# Bit-sliced integers: lemmas
-/
namespace Verif.Rw
open Bt (shardWidth)

/-- The cached counts of a row are right. -/
def RCnt (h : Heap) (r : Row) : Prop := ∀ s ∈ r, s.n = (rd h s.data).length

theorem count_columns {h : Heap} {r : Row} (hc : RCnt h r) : count r = (columns h r).length := by
  induction r with
  | nil => rfl
  | cons s r ih =>
    have := ih (fun t ht => hc t (List.mem_cons_of_mem _ ht))
    simp only [count, columns, List.map_cons, List.sum_cons, List.flatMap_cons, List.length_append] at *
    rw [this, hc s (by simp)]

theorem any_iff {h : Heap} {r : Row} : any h r = false ↔ columns h r = [] := by
  simp [any, columns]

theorem RCnt.append {own h r} (hc : RCnt h r) (hr : ROk own h r) (t : Heap) : RCnt (h ++ t) r :=
  fun s hs => by rw [rd_append (hr.2 s hs).1]; exact hc s hs

theorem sorted_ext {a b : List Nat} (ha : a.Pairwise (· < ·)) (hb : b.Pairwise (· < ·)) (h : ∀ x, x ∈ a ↔ x ∈ b) : a = b :=
  List.Perm.eq_of_pairwise (le := (· < ·)) (fun a b _ _ h1 h2 => by omega) ha hb
    ((List.perm_ext_iff_of_nodup (ha.imp fun h => Nat.ne_of_lt h) (hb.imp fun h => Nat.ne_of_lt h)).2 h)

theorem intersect_full {own h r o} (hh : HOk own h) (hr : ROk own h r) (ho : ROk own h o) :
    ∃ own' t, (intersect h r o).1 = h ++ t ∧ Ext own h own' (h ++ t) ∧ HOk own' (h ++ t) ∧
      ROk own' (h ++ t) (intersect h r o).2 ∧ RCnt (h ++ t) (intersect h r o).2 ∧
      columns (h ++ t) (intersect h r o).2 = (columns h r).filter (fun c => decide (c ∈ columns h o)) := by
  obtain ⟨h1, h2, h3, h4, h5, h6⟩ := intersect_build hh hr ho
  obtain ⟨own', t, e1, e2, e3, e4, e5, _, e7⟩ := build_spec _ hh h2 h3
  rw [← h1] at *
  refine ⟨own', t, e1, e2, e3, e4, fun s hs => ?_, ?_⟩
  · rcases e7 s hs with h | ⟨b, hb, _, e⟩
    · exact absurd h (h5 s)
    · rw [e]; exact (h6 _ _ _ _ hb).2
  · refine sorted_ext (columns_sorted e3 e4) ((columns_sorted hh hr).filter _) fun x => ?_
    rw [e5, h4]; simp

theorem difference_full {own h r o} (hh : HOk own h) (hr : ROk own h r) (ho : ROk own h o) :
    ∃ own' t, (difference h r [o]).1 = h ++ t ∧ Ext own h own' (h ++ t) ∧ HOk own' (h ++ t) ∧
      ROk own' (h ++ t) (difference h r [o]).2 ∧ (RCnt h r → RCnt (h ++ t) (difference h r [o]).2) ∧
      columns (h ++ t) (difference h r [o]).2 = (columns h r).filter (fun c => decide (c ∉ columns h o)) := by
  obtain ⟨h1, h2, h3, h4, h5, h6⟩ := difference_build (others := [o]) hh hr (by simpa using ho)
  obtain ⟨own', t, e1, e2, e3, e4, e5, _, e7⟩ := build_spec _ hh h2 h3
  rw [← h1] at *
  refine ⟨own', t, e1, e2, e3, e4, fun hc s hs => ?_, ?_⟩
  · rcases e7 s hs with h | ⟨b, hb, _, e⟩
    · have := (h5 s h).1
      rw [rd_append (hr.2 s this).1]; exact hc s this
    · rw [e]; exact (h6 _ _ _ _ hb).2
  · refine sorted_ext (columns_sorted e3 e4) ((columns_sorted hh hr).filter _) fun x => ?_
    rw [e5, h4]; simp

/-! ## The order of the walk -/

theorem length_split (s cols : List Nat) : cols.length = (cols.filter fun c => decide (c ∈ s)).length +
    (cols.filter fun c => decide (c ∉ s)).length := by
  have := (List.filter_append_perm (fun c => decide (c ∈ s)) cols).length_eq
  simp only [List.length_append] at this
  simp only [decide_not] at *; omega

/-- The entries below a node, in the order of the walk; `ss` are the sets, highest bit first. -/
def walk : List (List Nat) → List Nat → Nat → List (Nat × Nat)
  | [], cols, b => cols.map fun c => (b, c)
  | s :: ss, cols, b =>
    walk ss (cols.filter fun c => decide (c ∈ s)) (b ||| 2 ^ ss.length % 2 ^ 64) ++
      walk ss (cols.filter fun c => decide (c ∉ s)) b

theorem walk_length (ss cols b) : (walk ss cols b).length = cols.length := by
  induction ss generalizing cols b with
  | nil => simp [walk]
  | cons s ss ih =>
    simp only [walk, List.length_append, ih]
    exact (length_split s cols).symm

/-- The value read from sets given highest bit first. -/
def valueHigh : List (List Nat) → Nat → Nat
  | [], _ => 0
  | s :: ss, c => (if c ∈ s then 2 ^ ss.length else 0) + valueHigh ss c

theorem valueHigh_lt (ss c) : valueHigh ss c < 2 ^ ss.length := by
  induction ss with
  | nil => simp [valueHigh]
  | cons s ss ih => simp only [valueHigh, List.length_cons, Nat.pow_succ]; split <;> omega

theorem value_append (a b : List (List Nat)) (c : Nat) : value (a ++ b) c = value a c + 2 ^ a.length * value b c := by
  induction a with
  | nil => simp [value]
  | cons s a ih => simp only [List.cons_append, value, ih, List.length_cons, Nat.pow_succ]; grind

theorem valueHigh_eq (ss c) : valueHigh ss c = value ss.reverse c := by
  induction ss with
  | nil => rfl
  | cons s ss ih =>
    simp only [valueHigh, List.reverse_cons, value_append, value, ih, List.length_reverse]
    split <;> simp <;> omega

theorem branch_or {k b : Nat} (hk : k < 64) (hb : 2 ^ (k + 1) ∣ b) : b ||| 2 ^ k % 2 ^ 64 = b + 2 ^ k := by
  obtain ⟨q, rfl⟩ := hb
  rw [Nat.mod_eq_of_lt (Nat.pow_lt_pow_right (by omega) hk)]
  exact (Nat.two_pow_add_eq_or_of_lt (Nat.pow_lt_pow_right (by omega) (by omega)) q).symm

theorem walk_perm (ss cols b) (hl : ss.length ≤ 64) (hb : 2 ^ ss.length ∣ b) :
    (walk ss cols b).Perm (cols.map fun c => (b + valueHigh ss c, c)) := by
  induction ss generalizing cols b with
  | nil => simp [walk, valueHigh]
  | cons s ss ih =>
    simp only [List.length_cons] at hl hb
    have hd : 2 ^ ss.length ∣ b := Nat.dvd_trans (Nat.pow_dvd_pow 2 (by omega)) hb
    simp only [walk]
    rw [branch_or (by omega) hb]
    have h1 := ih (cols.filter fun c => decide (c ∈ s)) (b + 2 ^ ss.length) (by omega) (Nat.dvd_add hd (Nat.dvd_refl _))
    have h2 := ih (cols.filter fun c => decide (c ∉ s)) b (by omega) hd
    refine (h1.append h2).trans ?_
    have e1 : (cols.filter fun c => decide (c ∈ s)).map (fun c => (b + 2 ^ ss.length + valueHigh ss c, c)) =
        (cols.filter fun c => decide (c ∈ s)).map (fun c => (b + valueHigh (s :: ss) c, c)) := by
      refine List.map_congr_left fun c hc => ?_
      have : c ∈ s := by simpa using (List.mem_filter.1 hc).2
      simp only [valueHigh, if_pos this, Nat.add_assoc]
    have e2 : (cols.filter fun c => decide (c ∉ s)).map (fun c => (b + valueHigh ss c, c)) =
        (cols.filter fun c => decide (c ∉ s)).map (fun c => (b + valueHigh (s :: ss) c, c)) := by
      refine List.map_congr_left fun c hc => ?_
      have : c ∉ s := by simpa using (List.mem_filter.1 hc).2
      simp only [valueHigh, if_neg this, Nat.zero_add]
    rw [e1, e2, ← List.map_append]
    refine List.Perm.map _ ?_
    have := List.filter_append_perm (fun c => decide (c ∈ s)) cols
    simpa [decide_not] using this

theorem walk_mem {ss cols b} (hl : ss.length ≤ 64) (hb : 2 ^ ss.length ∣ b) {p} (hp : p ∈ walk ss cols b) :
    b ≤ p.1 ∧ p.1 < b + 2 ^ ss.length ∧ p.2 ∈ cols := by
  have := (walk_perm ss cols b hl hb).mem_iff.1 hp
  obtain ⟨c, hc, rfl⟩ := List.mem_map.1 this
  have := valueHigh_lt ss c
  exact ⟨by simp, by simpa using this, hc⟩

theorem walk_sorted (ss cols b) (hl : ss.length ≤ 64) (hb : 2 ^ ss.length ∣ b) (hs : cols.Pairwise (· < ·)) :
    (walk ss cols b).Pairwise (fun p q => before p q = true) := by
  induction ss generalizing cols b with
  | nil =>
    simp only [walk, List.pairwise_map]
    exact hs.imp fun h => by simp [before]; omega
  | cons s ss ih =>
    simp only [List.length_cons] at hl hb
    have hd : 2 ^ ss.length ∣ b := Nat.dvd_trans (Nat.pow_dvd_pow 2 (by omega)) hb
    simp only [walk]
    rw [branch_or (by omega) hb]
    refine List.pairwise_append.2 ⟨ih _ _ (by omega) (Nat.dvd_add hd (Nat.dvd_refl _)) (hs.filter _), ih _ _ (by omega) hd (hs.filter _),
      fun p hp q hq => ?_⟩
    have h1 := (walk_mem (by omega) (Nat.dvd_add hd (Nat.dvd_refl _)) hp).1
    have h2 := (walk_mem (by omega) hd hq).2.1
    simp only [before, decide_eq_true_eq]
    left; omega

theorem before_trans (a b c : Nat × Nat) (h1 : before a b = true) (h2 : before b c = true) : before a c = true := by
  simp only [before, decide_eq_true_eq] at *; omega

theorem before_total (a b : Nat × Nat) : (before a b || before b a) = true := by
  simp only [before, Bool.or_eq_true, decide_eq_true_eq]; omega

theorem walk_ranked (ss cols) (hl : ss.length ≤ 64) (hs : cols.Pairwise (· < ·)) :
    walk ss cols 0 = ranked (value ss.reverse) cols := by
  refine List.Perm.eq_of_pairwise (le := fun p q => before p q = true) ?_ (walk_sorted ss cols 0 hl (by simp) hs)
    (List.pairwise_mergeSort before_trans before_total _) ?_
  · rintro ⟨a, b⟩ ⟨c, d⟩ _ _ h1 h2
    simp only [before, decide_eq_true_eq] at h1 h2
    have : a = c := by omega
    have : b = d := by omega
    simp [*]
  · refine (walk_perm ss cols 0 hl (by simp)).trans ?_
    have e : (fun c => (0 + valueHigh ss c, c)) = fun c => (value ss.reverse c, c) := by
      funext c; rw [Nat.zero_add, valueHigh_eq]
    rw [e]
    exact (List.mergeSort_perm _ _).symm

/-! ## Pages -/

theorem page_nil (lim off) : page lim off [] = [] := by cases lim <;> cases off <;> simp [page]

theorem page_zero (off l) : page (some 0) off l = [] := by cases off <;> simp [page]

theorem page_skip {lim o l} (h : l.length ≤ o) : page lim (some o) l = [] := by
  simp only [page, List.drop_eq_nil_of_le h]; cases lim <;> simp

theorem page_append {lim off : Option Nat} {a b : List (Nat × Nat)} :
    page lim off (a ++ b) = page lim off a ++ page (lim.map (· - (page lim off a).length)) (off.map (· - a.length)) b := by
  cases lim <;> cases off <;> simp [page, List.drop_append, List.take_append]
  all_goals omega

/-! ## The walk of the program -/

theorem told_append (a b) : told (a ++ b) = told a ++ told b := by simp [told]

/-- What a call does, from a node with branch value `b`. -/
structure PivotSpec (own : Nat → Nat) (h : Heap) (ss : List (List Nat)) (cols : List Nat) (b : Nat) (lim off : Option Nat)
    (p : Pivot) : Prop where
  heap : ∃ own' t, p.heap = h ++ t ∧ Ext own h own' (h ++ t) ∧ HOk own' (h ++ t)
  told : told p.calls = page lim off (walk ss cols b)
  limit : p.limit = lim.map (· - (Rw.told p.calls).length)
  offset : p.limit = some 0 ∨ p.offset = off.map (· - cols.length)
  full : ∀ c ∈ p.calls, c.2 ≠ []
  keys : p.calls.Pairwise (fun c d => d.1 < c.1)

theorem PivotSpec.nothing {own h ss cols b lim off off'} (hh : HOk own h) (ht : page lim off (walk ss cols b) = [])
    (ho : lim = some 0 ∨ off' = off.map (· - cols.length)) :
    PivotSpec own h ss cols b lim off { heap := h, limit := lim, offset := off', calls := [] } where
  heap := ⟨own, [], by simp, by simpa using Ext.refl _ _, by simpa using hh⟩
  told := by rw [ht]; rfl
  limit := by cases lim <;> simp [Rw.told]
  offset := ho
  full := by simp
  keys := List.Pairwise.nil

theorem page_mem {lim off l} {p} (h : p ∈ page lim off l) : p ∈ l := by
  cases lim <;> cases off <;> simp only [page] at h
  · exact h
  · exact List.mem_of_mem_drop h
  · exact List.mem_of_mem_take h
  · exact List.mem_of_mem_drop (List.mem_of_mem_take h)

theorem told_key {calls : List (Nat × List Nat)} (hf : ∀ c ∈ calls, c.2 ≠ []) {c} (hc : c ∈ calls) :
    ∃ p ∈ told calls, p.1 = c.1 := by
  obtain ⟨x, hx⟩ := List.exists_mem_of_ne_nil _ (hf c hc)
  exact ⟨(c.1, x), List.mem_flatMap.2 ⟨c, hc, List.mem_map.2 ⟨x, hx, rfl⟩⟩, rfl⟩

/-- Without an offset there is none afterwards. -/
theorem pivotHigh_offset (bits : List Row) (h : Heap) (r : Row) (b : Nat) (lim : Option Nat) : (pivotHigh h bits r b lim none).offset = none := by
  induction bits generalizing h r b lim with
  | nil =>
    unfold pivotHigh
    simp only [skips]
    split
    · rfl
    · simp only [Bool.false_eq_true, if_false]
      split <;> rfl
  | cons sp bits ih =>
    unfold pivotHigh
    simp only [skips]
    split
    · rfl
    · simp only [Bool.false_eq_true, if_false]
      split
      · rfl
      · simp only [ih]

theorem pivotHigh_spec (bits : List Row) {own h r} (b : Nat) (lim off : Option Nat) (hh : HOk own h) (hr : ROk own h r)
    (hc : off = none ∨ RCnt h r) (hbits : ∀ o ∈ bits, ROk own h o) (hl : bits.length ≤ 64) (hb : 2 ^ bits.length ∣ b) :
    PivotSpec own h (sets h bits) (columns h r) b lim off (pivotHigh h bits r b lim off) := by
  induction bits generalizing own h r b lim off with
  | nil =>
    unfold pivotHigh
    by_cases ha : any h r = false
    · rw [if_pos ha]
      have := any_iff.1 ha
      refine PivotSpec.nothing hh ?_ (Or.inr ?_)
      · rw [this]; exact page_nil _ _
      · rw [this]; cases off <;> simp
    rw [if_neg ha]
    by_cases hs : skips off r = true
    · rw [if_pos hs]
      cases off with
      | none => cases hs
      | some o =>
        have hc : RCnt h r := hc.resolve_left (by simp)
        simp only [skips, decide_eq_true_eq] at hs
        rw [count_columns hc] at hs
        refine PivotSpec.nothing hh (page_skip (by rw [walk_length]; exact hs)) (Or.inr ?_)
        rw [count_columns hc]
    rw [if_neg hs]
    by_cases h0 : lim = some 0
    · rw [if_pos h0]; exact PivotSpec.nothing hh (by rw [h0]; exact page_zero _ _) (Or.inl h0)
    rw [if_neg h0]
    have hne : columns h r ≠ [] := fun e => ha (any_iff.2 e)
    have hlen : 0 < (columns h r).length := by
      rcases hx : columns h r with _ | ⟨a, l⟩
      · exact absurd hx hne
      · simp
    have ho : ∀ o, off = some o → o < (columns h r).length := by
      rintro o rfl
      have hc : RCnt h r := hc.resolve_left (by simp)
      simp only [skips, decide_eq_true_eq] at hs
      rw [count_columns hc] at hs; omega
    have ht : told (leaf h r b lim off).calls = page lim off (walk (sets h []) (columns h r) b) := by
      cases lim with
      | none => cases off <;> simp [leaf, told, page, walk, sets]
      | some l =>
        cases off <;> simp only [leaf, told, page, walk, sets, List.map_nil, List.flatMap_cons, List.flatMap_nil, List.append_nil]
        · split
          · simp
          · rename_i hh; rw [← List.map_take, List.take_of_length_le (by omega)]
        · split
          · simp
          · rename_i hh; rw [← List.map_drop, ← List.map_take, List.take_of_length_le (by omega)]
    refine ⟨⟨own, [], by simp [leaf], by simpa using Ext.refl _ _, by simpa using hh⟩, ht, ?_, ?_, ?_, ?_⟩
    · simp [leaf, told]
    · right
      cases off with
      | none => rfl
      | some o => have := ho o rfl; simp [leaf]; omega
    · intro c hc'
      simp only [leaf, List.mem_singleton] at hc'
      subst hc'
      cases lim with
      | none =>
        cases off with
        | none => exact hne
        | some o => simpa using ho o rfl
      | some l =>
        have : l ≠ 0 := fun e => h0 (by rw [e])
        cases off with
        | none => simp only; split <;> simp [this, hne]
        | some o => have := ho o rfl; simp only; split <;> simp <;> omega
    · simp [leaf]
  | cons sp bits ih =>
    simp only [List.length_cons] at hl hb
    unfold pivotHigh
    by_cases ha : any h r = false
    · rw [if_pos ha]
      have := any_iff.1 ha
      refine PivotSpec.nothing hh ?_ (Or.inr ?_)
      · have : (walk (sets h (sp :: bits)) (columns h r) b) = [] := List.length_eq_zero_iff.1 (by rw [walk_length, this]; rfl)
        rw [this]; exact page_nil _ _
      · rw [this]; cases off <;> simp
    rw [if_neg ha]
    by_cases hs : skips off r = true
    · rw [if_pos hs]
      cases off with
      | none => cases hs
      | some o =>
        have hc : RCnt h r := hc.resolve_left (by simp)
        simp only [skips, decide_eq_true_eq] at hs
        rw [count_columns hc] at hs
        refine PivotSpec.nothing hh (page_skip (by rw [walk_length]; exact hs)) (Or.inr ?_)
        rw [count_columns hc]
    rw [if_neg hs]
    by_cases h0 : lim = some 0
    · rw [if_pos h0]; exact PivotSpec.nothing hh (by rw [h0]; exact page_zero _ _) (Or.inl h0)
    rw [if_neg h0]
    have hd : 2 ^ bits.length ∣ b := Nat.dvd_trans (Nat.pow_dvd_pow 2 (by omega)) hb
    have hsp := hbits sp (by simp)
    obtain ⟨own1, t1, i1, i2, i3, i4, i5, i6⟩ := intersect_full hh hr hsp
    have hsets1 : sets (h ++ t1) bits = sets h bits :=
      List.map_congr_left fun o ho => columns_append (hbits o (List.mem_cons_of_mem _ ho)) t1
    have hbr : b ||| 2 ^ bits.length % 2 ^ 64 = b + 2 ^ bits.length := branch_or (by omega) hb
    have hdu : 2 ^ bits.length ∣ b ||| 2 ^ bits.length % 2 ^ 64 := by rw [hbr]; exact Nat.dvd_add hd (Nat.dvd_refl _)
    have u := ih (b ||| 2 ^ bits.length % 2 ^ 64) lim off i3 i4 (Or.inr i5)
      (fun o ho => (hbits o (List.mem_cons_of_mem _ ho)).ext i2) (by omega) hdu
    rw [i6, hsets1] at u
    simp only [i1]
    have huo : off = none → (pivotHigh (h ++ t1) bits (intersect h r sp).2 (b ||| 2 ^ bits.length % 2 ^ 64) lim off).offset = none := by
      rintro rfl; exact pivotHigh_offset _ _ _ _ _
    generalize pivotHigh (h ++ t1) bits (intersect h r sp).2 (b ||| 2 ^ bits.length % 2 ^ 64) lim off = U at u huo
    obtain ⟨own2, t2, j1, j2, j3⟩ := u.heap
    rw [List.append_assoc] at j1 j2 j3
    have e2 := i2.trans j2
    have hr2 := hr.ext e2
    have hcols : columns (h ++ (t1 ++ t2)) r = columns h r := columns_append hr _
    have hcsp : columns (h ++ (t1 ++ t2)) sp = columns h sp := columns_append hsp _
    obtain ⟨own3, t3, d1, d2, d3, d4, d5, d6⟩ := difference_full j3 hr2 (hsp.ext e2)
    rw [hcols, hcsp] at d6
    have hsets3 : sets (h ++ (t1 ++ t2) ++ t3) bits = sets h bits := by
      rw [List.append_assoc]
      exact List.map_congr_left fun o ho => columns_append (hbits o (List.mem_cons_of_mem _ ho)) _
    have hcu : U.offset = none ∨ RCnt (h ++ (t1 ++ t2) ++ t3) (difference (h ++ (t1 ++ t2)) r [sp]).2 := by
      rcases hc with hc | hc
      · left
        exact huo hc
      · exact Or.inr (d5 (hc.append hr _))
    have l := ih b U.limit U.offset d3 d4 hcu
      (fun o ho => (hbits o (List.mem_cons_of_mem _ ho)).ext (e2.trans d2)) (by omega) hd
    rw [d6, hsets3] at l
    simp only [j1, d1]
    generalize pivotHigh (h ++ (t1 ++ t2) ++ t3) bits (difference (h ++ (t1 ++ t2)) r [sp]).2 b U.limit U.offset = L at l
    obtain ⟨own4, t4, k1, k2, k3⟩ := l.heap
    have hlen : (columns h r).length = ((columns h r).filter fun c => decide (c ∈ columns h sp)).length +
        ((columns h r).filter fun c => decide (c ∉ columns h sp)).length := length_split _ _
    have hwalk : walk (sets h (sp :: bits)) (columns h r) b =
        walk (sets h bits) ((columns h r).filter fun c => decide (c ∈ columns h sp)) (b ||| 2 ^ bits.length % 2 ^ 64) ++
        walk (sets h bits) ((columns h r).filter fun c => decide (c ∉ columns h sp)) b := by
      simp [sets, walk]
    have htl : told L.calls = page (lim.map (· - (told U.calls).length))
        (off.map (· - ((columns h r).filter fun c => decide (c ∈ columns h sp)).length))
        (walk (sets h bits) ((columns h r).filter fun c => decide (c ∉ columns h sp)) b) := by
      rw [← u.limit, l.told]
      rcases u.offset with h | h
      · rw [h, page_zero, page_zero]
      · rw [h]
    refine ⟨⟨own4, t1 ++ t2 ++ (t3 ++ t4), by rw [k1]; simp, ?_, ?_⟩, ?_, ?_, ?_, ?_, ?_⟩
    · have := (e2.trans d2).trans k2
      simpa [List.append_assoc] using this
    · simpa [List.append_assoc] using k3
    · rw [told_append, hwalk, page_append, ← u.told, walk_length, htl]
    · show L.limit = _
      rw [l.limit, u.limit, told_append]
      cases lim <;> simp [Nat.sub_sub]
    · show L.limit = _ ∨ L.offset = _
      rcases l.offset with h | h
      · exact Or.inl h
      · rcases u.offset with h' | h'
        · left; rw [l.limit, h']; simp
        · right
          rw [h, h', hlen]
          cases off <;> simp [Nat.sub_sub]
    · intro c hc
      rcases List.mem_append.1 hc with hc | hc
      · exact u.full c hc
      · exact l.full c hc
    · refine List.pairwise_append.2 ⟨u.keys, l.keys, fun c hc d hd' => ?_⟩
      obtain ⟨p, hp, ep⟩ := told_key u.full hc
      obtain ⟨q, hq, eq⟩ := told_key l.full hd'
      rw [u.told] at hp
      rw [l.told] at hq
      have hle : (sets h bits).length = bits.length := by simp [sets]
      have h1 := (walk_mem (by omega) (by rw [hle]; exact hdu) (page_mem hp)).1
      have h2 := (walk_mem (by omega) (by rw [hle]; exact hd) (page_mem hq)).2.1
      rw [hbr] at h1
      rw [hle] at h2
      omega

end Verif.Rw
