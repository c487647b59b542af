import Verif.Lemmas.RowsExact
import Verif.Lemmas.Bsi2
/-!
# Which bitmaps of the operands a sum of bit-sliced integers shares
-/
namespace Verif.Rw
open Bt (shardWidth)

theorem emit_mem (h : Heap) (k : Nat) (ps : List Nat) (dst : List Row) (i : Nat) (s : Seg) :
    s ∈ (emit h k dst ps).getD i [] ↔ s ∈ dst.getD i [] ∨
      ∃ p, ps[(i : Nat)]? = some p ∧ rd h p ≠ [] ∧ s = { shard := k, data := p, writable := true, n := (rd h p).length } := by
  induction ps generalizing dst i with
  | nil => rw [emit_nil]; simp
  | cons p ps ih =>
    cases dst with
    | nil =>
      simp only [emit]
      split
      · rename_i ha
        constructor
        · simp
        · rintro (h | ⟨q, hq, hne, -⟩)
          · simp at h
          · exact absurd (by simpa using (List.all_eq_true.1 ha) q (List.mem_of_getElem? hq)) hne
      · cases i with
        | zero => by_cases he : rd h p = [] <;> simp [he]
        | succ i => simpa using ih [] i
    | cons d dst =>
      simp only [emit]
      cases i with
      | zero => by_cases he : rd h p = [] <;> simp [he]
      | succ i => simpa using ih dst i

/-- Row `i` of `xs` has the bitmap `p`, not empty, in shard `k`, and no row of `ys` has any columns there. -/
def Owned (h : Heap) (xs ys : List Row) (i k p : Nat) : Prop :=
  (∃ r, xs[i]? = some r ∧ ∃ t ∈ r, t.shard = k ∧ t.data = p ∧ rd h p ≠ []) ∧ ∀ r ∈ ys, ∀ t ∈ r, t.shard = k → rd h t.data = []

theorem headAt_mem {h : Heap} {k : Nat} {r : Row} {p : Nat} (hp : headAt h k r = some p) :
    ∃ t ∈ r, t.shard = k ∧ t.data = p ∧ rd h p ≠ [] := by
  cases r with
  | nil => cases hp
  | cons s t =>
    simp only [headAt] at hp
    split at hp
    · rename_i hs; cases hp; exact ⟨s, by simp, hs.1, rfl, hs.2⟩
    · cases hp

theorem mem_headAt {own h r k t} (hr : ROk own h r) (hk : ∀ s t, r = s :: t → k ≤ s.shard) (ht : t ∈ r) (e : t.shard = k)
    (hne : rd h t.data ≠ []) : headAt h k r = some t.data := by
  cases r with
  | nil => cases ht
  | cons s r =>
    have h1 := hk s r rfl
    have h2 := (List.pairwise_cons.1 hr.1).1
    rcases List.mem_cons.1 ht with rfl | ht
    · simp [headAt, e, hne]
    · have := h2 t ht; omega

theorem headAt_none {own h r k} (hr : ROk own h r) (hk : ∀ s t, r = s :: t → k ≤ s.shard) :
    headAt h k r = none ↔ ∀ t ∈ r, t.shard = k → rd h t.data = [] := by
  constructor
  · intro hn t ht e
    refine Classical.byContradiction fun hne => ?_
    rw [mem_headAt hr hk ht e hne] at hn; cases hn
  · intro h
    cases hp : headAt _ k r with
    | none => rfl
    | some p =>
      obtain ⟨t, ht, e, rfl, hne⟩ := headAt_mem hp
      exact absurd (h t ht e) hne

theorem mem_tailAt {k : Nat} {r : Row} {s : Seg} (h : s ∈ tailAt k r) : s ∈ r := by
  cases r with
  | nil => cases h
  | cons a r =>
    simp only [tailAt] at h
    split at h
    · exact List.mem_cons_of_mem _ h
    · exact h

theorem tailAt_mem {k : Nat} {r : Row} {s : Seg} (h : s ∈ r) (hk : s.shard ≠ k) : s ∈ tailAt k r := by
  cases r with
  | nil => cases h
  | cons a r =>
    simp only [tailAt]
    split
    · rcases List.mem_cons.1 h with rfl | h
      · omega
      · exact h
    · exact h

/-- What is shared later was already there, and conversely. -/
theorem owned_tail {own h t1} {xs ys : List Row} (hx : ∀ r ∈ xs, ROk own h r) (hy : ∀ r ∈ ys, ROk own h r) {i k m p : Nat} (hm : m ≠ k) :
    Owned (h ++ t1) (xs.map (tailAt k)) (ys.map (tailAt k)) i m p ↔ Owned h xs ys i m p := by
  constructor
  · rintro ⟨⟨r, hr, t, ht, e1, e2, hne⟩, hno⟩
    rw [List.getElem?_map] at hr
    obtain ⟨r0, hr0, rfl⟩ := Option.map_eq_some_iff.1 hr
    have htr := mem_tailAt ht
    refine ⟨⟨r0, hr0, t, htr, e1, e2, ?_⟩, fun r hr u hu e => ?_⟩
    · rwa [← e2, rd_append ((hx r0 (List.mem_of_getElem? hr0)).2 t htr).1, e2] at hne
    · have := hno _ (List.mem_map_of_mem hr) u (tailAt_mem hu (by omega)) e
      rwa [rd_append ((hy r hr).2 u hu).1] at this
  · rintro ⟨⟨r, hr, t, ht, e1, e2, hne⟩, hno⟩
    refine ⟨⟨tailAt k r, by rw [List.getElem?_map, hr]; rfl, t, tailAt_mem ht (by omega), e1, e2, ?_⟩, fun r hr u hu e => ?_⟩
    · rwa [← e2, rd_append ((hx r (List.mem_of_getElem? hr)).2 t ht).1, e2]
    · obtain ⟨r0, hr0, rfl⟩ := List.mem_map.1 hr
      have hur := mem_tailAt hu
      rw [rd_append ((hy r0 hr0).2 u hur).1]
      exact hno r0 hr0 u hur e

/-- The bitmaps that one round hands on. -/
theorem addShard_alias {own h k} {xs ys : List Row} (hx : ∀ r ∈ xs, ROk own h r) (hy : ∀ r ∈ ys, ROk own h r)
    (hmin : ∀ s t, s :: t ∈ xs ++ ys → k ≤ s.shard) (i p : Nat) (hp : p < h.length) :
    ((addShard h (xs.map (headAt h k)) (ys.map (headAt h k))).2[(i : Nat)]? = some p ↔ Owned h xs ys i k p ∨ Owned h ys xs i k p) := by
  have hkx : ∀ r ∈ xs, ∀ s t, r = s :: t → k ≤ s.shard := fun r hr s t e => hmin s t (by rw [List.mem_append]; exact Or.inl (e ▸ hr))
  have hky : ∀ r ∈ ys, ∀ s t, r = s :: t → k ≤ s.shard := fun r hr s t e => hmin s t (by rw [List.mem_append]; exact Or.inr (e ▸ hr))
  have hnone : ∀ zs : List Row, (∀ r ∈ zs, ROk own h r) → (∀ r ∈ zs, ∀ s t, r = s :: t → k ≤ s.shard) →
      ((zs.map (headAt h k)).all (·.isNone) = true ↔ ∀ r ∈ zs, ∀ t ∈ r, t.shard = k → rd h t.data = []) := by
    intro zs hz hk
    rw [List.all_eq_true]
    constructor
    · intro h r hr
      have := h _ (List.mem_map_of_mem hr)
      exact (headAt_none (hz r hr) (hk r hr)).1 (by simpa using this)
    · intro h q hq
      obtain ⟨r, hr, rfl⟩ := List.mem_map.1 hq
      rw [(headAt_none (hz r hr) (hk r hr)).2 (h r hr)]; rfl
  have hsome : ∀ zs : List Row, (∀ r ∈ zs, ROk own h r) → (∀ r ∈ zs, ∀ s t, r = s :: t → k ≤ s.shard) →
      (((zs.map (headAt h k)).map (·.getD h.length))[(i : Nat)]? = some p ↔
        ∃ r, zs[i]? = some r ∧ ∃ t ∈ r, t.shard = k ∧ t.data = p ∧ rd h p ≠ []) := by
    intro zs hz hk
    rw [List.getElem?_map, List.getElem?_map]
    constructor
    · intro h
      obtain ⟨q, hq, e⟩ := Option.map_eq_some_iff.1 h
      obtain ⟨r, hr, rfl⟩ := Option.map_eq_some_iff.1 hq
      cases hh : headAt _ k r with
      | none => rw [hh] at e; simp at e; omega
      | some q => rw [hh] at e; simp at e; subst e; exact ⟨r, hr, headAt_mem hh⟩
    · rintro ⟨r, hr, t, ht, e, rfl, hne⟩
      rw [hr]
      simp [mem_headAt (hz r (List.mem_of_getElem? hr)) (hk r (List.mem_of_getElem? hr)) ht e hne]
  have hx0 := hnone xs hx hkx
  have hy0 := hnone ys hy hky
  unfold addShard
  by_cases h1 : (xs.map (headAt h k)).all (·.isNone) = true
  · rw [if_pos h1, hsome ys hy hky]
    have h1 := hx0.1 h1
    constructor
    · exact fun h => Or.inr ⟨h, h1⟩
    · rintro (⟨⟨r, hr, t, ht, e, rfl, hne⟩, -⟩ | ⟨h, -⟩)
      · exact absurd (h1 r (List.mem_of_getElem? hr) t ht e) hne
      · exact h
  · rw [if_neg h1]
    by_cases h2 : (ys.map (headAt h k)).all (·.isNone) = true
    · rw [if_pos h2, hsome xs hx hkx]
      have h2 := hy0.1 h2
      constructor
      · exact fun h => Or.inl ⟨h, h2⟩
      · rintro (⟨h, -⟩ | ⟨⟨r, hr, t, ht, e, rfl, hne⟩, -⟩)
        · exact h
        · exact absurd (h2 r (List.mem_of_getElem? hr) t ht e) hne
    · rw [if_neg h2]
      constructor
      · intro hs
        have := List.mem_of_getElem? hs
        rw [List.mem_range'_1] at this
        omega
      · rintro (⟨-, h⟩ | ⟨-, h⟩)
        · exact absurd (hy0.2 h) h2
        · exact absurd (hx0.2 h) h1

theorem addLoop_alias (f : Nat) {own h} (xs ys dst : List Row) (hh : HOk own h) (hx : ∀ r ∈ xs, ROk own h r)
    (hy : ∀ r ∈ ys, ROk own h r) (hf : ((xs ++ ys).map List.length).sum ≤ f) :
    (∀ i s, s ∈ (addLoop f h xs ys dst).2.getD i [] → s ∈ dst.getD i [] ∨ h.length ≤ s.data ∨
      Owned h xs ys i s.shard s.data ∨ Owned h ys xs i s.shard s.data) ∧
    (∀ i s, s ∈ dst.getD i [] → s ∈ (addLoop f h xs ys dst).2.getD i []) ∧
    (∀ i k p, Owned h xs ys i k p ∨ Owned h ys xs i k p → ∃ s ∈ (addLoop f h xs ys dst).2.getD i [], s.shard = k ∧ s.data = p ∧ s.writable = true) := by
  have stop : ∀ {h : Heap} {xs ys : List Row}, (∀ r ∈ xs ++ ys, r = []) → ∀ {i k p}, ¬ (Owned h xs ys i k p ∨ Owned h ys xs i k p) := by
    rintro h xs ys he i k p (⟨⟨r, hr, t, ht, -⟩, -⟩ | ⟨⟨r, hr, t, ht, -⟩, -⟩)
    · rw [he r (List.mem_append.2 (Or.inl (List.mem_of_getElem? hr)))] at ht; cases ht
    · rw [he r (List.mem_append.2 (Or.inr (List.mem_of_getElem? hr)))] at ht; cases ht
  induction f generalizing own h xs ys dst with
  | zero =>
    have he : ∀ r ∈ xs ++ ys, r = [] := fun r hr => List.length_eq_zero_iff.1 (by
      have : r.length ≤ ((xs ++ ys).map List.length).sum := mem_le_sum (List.mem_map.2 ⟨r, hr, rfl⟩)
      omega)
    exact ⟨fun i s hs => Or.inl hs, fun i s hs => hs, fun i k p ho => absurd ho (stop he)⟩
  | succ f ih =>
    unfold addLoop
    cases hn : nextShard (xs ++ ys) with
    | none => exact ⟨fun i s hs => Or.inl hs, fun i s hs => hs, fun i k p ho => absurd ho (stop (nextShard_none hn))⟩
    | some k =>
      obtain ⟨hex, hmin⟩ := nextShard_some hn
      obtain ⟨own1, t1, a1, a2, a3, a4, a5⟩ := addShard_spec (k := k) hh hx hy
      have hal := addShard_alias hx hy hmin
      simp only [a1]
      generalize hps : (addShard h (xs.map (headAt h k)) (ys.map (headAt h k))).2 = ps at a4 a5 hal
      have hlen := total_lt hex
      rw [List.map_append] at hlen
      have hgt : ∀ {i m p}, Owned (h ++ t1) (xs.map (tailAt k)) (ys.map (tailAt k)) i m p → m ≠ k := by
        rintro i m p ⟨⟨r, hr, t, ht, e, -⟩, -⟩
        obtain ⟨r0, hr0, rfl⟩ := List.mem_map.1 (List.mem_of_getElem? hr)
        have := tailAt_gt (hx r0 hr0) (fun s t e => hmin s t (List.mem_append.2 (Or.inl (e ▸ hr0)))) t ht
        omega
      have hgt' : ∀ {i m p}, Owned (h ++ t1) (ys.map (tailAt k)) (xs.map (tailAt k)) i m p → m ≠ k := by
        rintro i m p ⟨⟨r, hr, t, ht, e, -⟩, -⟩
        obtain ⟨r0, hr0, rfl⟩ := List.mem_map.1 (List.mem_of_getElem? hr)
        have := tailAt_gt (hy r0 hr0) (fun s t e => hmin s t (List.mem_append.2 (Or.inr (e ▸ hr0)))) t ht
        omega
      obtain ⟨i1, i2, i3⟩ := ih (xs.map (tailAt k)) (ys.map (tailAt k)) (emit (h ++ t1) k dst ps) a3
        (fun r hr => by obtain ⟨r', hr', rfl⟩ := List.mem_map.1 hr; exact tailAt_ok ((hx r' hr').ext a2))
        (fun r hr => by obtain ⟨r', hr', rfl⟩ := List.mem_map.1 hr; exact tailAt_ok ((hy r' hr').ext a2)) (by omega)
      refine ⟨fun i s hs => ?_, fun i s hs => i2 i s ((emit_mem _ _ _ _ _ _).2 (Or.inl hs)), fun i m p ho => ?_⟩
      · rcases i1 i s hs with h1 | h1 | h1 | h1
        · rcases (emit_mem _ _ _ _ _ _).1 h1 with h1 | ⟨p, hp, hne, rfl⟩
          · exact Or.inl h1
          · by_cases hlt : p < h.length
            · exact Or.inr (Or.inr ((hal i p hlt).1 hp))
            · exact Or.inr (Or.inl (Nat.le_of_not_lt hlt))
        · rw [List.length_append] at h1; exact Or.inr (Or.inl (by omega))
        · exact Or.inr (Or.inr (Or.inl ((owned_tail hx hy (hgt h1)).1 h1)))
        · exact Or.inr (Or.inr (Or.inr ((owned_tail hy hx (hgt' h1)).1 h1)))
      · by_cases hm : m = k
        · subst hm
          have hp : p < h.length ∧ rd h p ≠ [] := by
            rcases ho with ⟨⟨r, hr, t, ht, e, rfl, hne⟩, -⟩ | ⟨⟨r, hr, t, ht, e, rfl, hne⟩, -⟩
            · exact ⟨((hx r (List.mem_of_getElem? hr)).2 t ht).1, hne⟩
            · exact ⟨((hy r (List.mem_of_getElem? hr)).2 t ht).1, hne⟩
          refine ⟨{ shard := m, data := p, writable := true, n := (rd (h ++ t1) p).length }, i2 _ _ ?_, rfl, rfl, rfl⟩
          exact (emit_mem _ _ _ _ _ _).2 (Or.inr ⟨p, (hal i p hp.1).2 ho, by rw [rd_append hp.1]; exact hp.2, rfl⟩)
        · exact i3 i m p (ho.imp (owned_tail hx hy hm).2 (owned_tail hy hx hm).2)

/-- Setting a bit that is already there changes nothing reachable. -/
theorem setBit_there {own h} (r : Row) (hr : ROk own h r) {c : Nat} (hh : HOk own h) (hc : c ∈ columns h r) (p : Nat) (hp : p < h.length) :
    rd (setBit h c r).1 p = rd h p := by
  induction r with
  | nil => cases hc
  | cons a r ih =>
    have hpw := List.pairwise_cons.1 hr.1
    have hr' : ROk own h r := ⟨hpw.2, fun s hs => hr.2 s (List.mem_cons_of_mem _ hs)⟩
    obtain ⟨s, hs, hx⟩ := mem_columns.1 hc
    have hk := seg_bits hh hr hs hx
    simp only [setBit]
    by_cases h1 : a.shard < c / shardWidth
    · rw [if_pos h1]
      refine ih hr' (mem_columns.2 ⟨s, ?_, hx⟩)
      rcases List.mem_cons.1 hs with rfl | hs
      · omega
      · exact hs
    · rw [if_neg h1]
      have ha : a = s := by
        rcases List.mem_cons.1 hs with e | hs
        · exact e.symm
        · have := hpw.1 s hs; omega
      subst ha
      rw [if_pos hk.symm]
      unfold segSetBit ensureWritable
      by_cases hw : a.writable = true
      · simp only [hw, if_true, if_pos hx]
      · simp only [hw, if_false, Bool.false_eq_true]
        rw [rd_new, if_pos hx, rd_append hp]

end Verif.Rw
