import Verif.Lemmas.Bsi
/-!
# AddBSI: lemmas
-/
namespace Verif.Rw
open Bt (shardWidth)

theorem Bm.and_mem_left {a b : Bm} {z : Nat} (h : z ∈ a.and b) : z ∈ a := (Bm.mem_and.1 h).1

theorem carry_value (ys : List Bm) (c : Bm) (z : Nat) : value (carry ys c) z = value ys z + (if z ∈ c then 1 else 0) := by
  induction ys generalizing c with
  | nil => simp [carry, value]
  | cons y ys ih =>
    simp only [carry, value, ih, Bm.mem_xor, Bm.mem_and]
    by_cases h1 : z ∈ y <;> by_cases h2 : z ∈ c <;> simp [h1, h2] <;> omega

theorem rippleAdd_value (xs ys : List Bm) (c : Bm) (z : Nat) :
    value (rippleAdd xs ys c) z = value xs z + value ys z + (if z ∈ c then 1 else 0) := by
  induction xs generalizing ys c with
  | nil => simp [rippleAdd, carry_value, value]
  | cons x xs ih =>
    cases ys with
    | nil => rw [rippleAdd, carry_value]; simp [value]
    | cons y ys =>
      simp only [rippleAdd, value, ih, Bm.mem_xor, Bm.mem_and, Bm.mem_or]
      by_cases h1 : z ∈ x <;> by_cases h2 : z ∈ c <;> by_cases h3 : z ∈ y <;> simp [h1, h2, h3] <;> omega

/-- A bitmap of one shard. -/
def In (k : Nat) (b : Bm) : Prop := b.Ok ∧ ∀ x ∈ b, x / shardWidth = k

theorem In.nil (k) : In k [] := ⟨Bm.nil_ok, by simp⟩

theorem In.xor {k a b} (ha : In k a) (hb : In k b) : In k (a.xor b) :=
  ⟨Bm.xor_ok ha.1, fun x hx => by
    rcases Bm.mem_xor.1 hx with h | h
    · exact ha.2 x h.1
    · exact hb.2 x h.1⟩

theorem In.and {k} {a b : Bm} (ha : In k a) : In k (a.and b) := ⟨Bm.and_ok ha.1, fun x hx => ha.2 x (Bm.mem_and.1 hx).1⟩

theorem In.or {k} {a b : Bm} (ha : In k a) (hb : In k b) : In k (a.or b) :=
  ⟨Bm.or_ok ha.1, fun x hx => by
    rcases Bm.mem_or.1 hx with h | h
    · exact ha.2 x h
    · exact hb.2 x h⟩

theorem carry_in {k} (ys : List Bm) (c : Bm) (hy : ∀ s ∈ ys, In k s) (hc : In k c) : ∀ s ∈ carry ys c, In k s := by
  induction ys generalizing c with
  | nil => simpa [carry] using hc
  | cons y ys ih =>
    have h1 := hy y (by simp)
    simp only [carry, List.mem_cons, forall_eq_or_imp]
    exact ⟨h1.xor hc, ih _ (fun s hs => hy s (List.mem_cons_of_mem _ hs)) h1.and⟩

theorem rippleAdd_in {k} (xs ys : List Bm) (c : Bm) (hx : ∀ s ∈ xs, In k s) (hy : ∀ s ∈ ys, In k s) (hc : In k c) :
    ∀ s ∈ rippleAdd xs ys c, In k s := by
  induction xs generalizing ys c with
  | nil => exact carry_in ys c hy hc
  | cons x xs ih =>
    have h1 := hx x (by simp)
    have hx' := fun s hs => hx s (List.mem_cons_of_mem _ hs)
    cases ys with
    | nil => exact carry_in (x :: xs) c hx hc
    | cons y ys =>
      have h2 := hy y (by simp)
      simp only [rippleAdd, List.mem_cons, forall_eq_or_imp]
      exact ⟨(h1.xor h2).xor hc, ih _ _ hx' (fun s hs => hy s (List.mem_cons_of_mem _ hs)) (h1.and.or (h1.xor h2).and)⟩

/-! ## Allocating several bitmaps -/

theorem allocs_ok {own h} (l : List Bm) {k : Nat} (hh : HOk own h) (hl : ∀ b ∈ l, In k b) :
    ∃ own', Ext own h own' (h ++ l) ∧ HOk own' (h ++ l) ∧ ∀ p, h.length ≤ p → p < (h ++ l).length → own' p = k := by
  induction l generalizing own h with
  | nil => exact ⟨own, by simpa using Ext.refl _ _, by simpa using hh, fun p h1 h2 => by simp at h2; omega⟩
  | cons b l ih =>
    have hb := hl b (by simp)
    obtain ⟨own1, e1, h1, k1⟩ := alloc_ok hh hb.1 hb.2
    obtain ⟨own2, e2, h2, k2⟩ := ih h1 (fun b hb => hl b (List.mem_cons_of_mem _ hb))
    have e : h ++ [b] ++ l = h ++ b :: l := by simp
    rw [e] at e2 h2 k2
    refine ⟨own2, e1.trans e2, h2, fun p hp1 hp2 => ?_⟩
    by_cases hp : p = h.length
    · subst hp; rw [e2.2 _ (by simp), k1]
    · exact k2 p (by simp; omega) hp2

theorem map_rd_range (h : Heap) (l : List Bm) : (List.range' h.length l.length).map (rd (h ++ l)) = l := by
  induction l generalizing h with
  | nil => simp
  | cons b l ih =>
    have := ih (h ++ [b])
    simp only [List.append_assoc, List.length_append, List.length_cons, List.length_nil, List.cons_append, List.nil_append] at this
    simp only [List.length_cons, List.range'_succ, List.map_cons]
    rw [this]
    congr 1
    simp [rd]

theorem slices_getD {h : Heap} {l : List (Option Nat)} {p : Nat} {t : Heap} (hp : rd (h ++ t) p = [])
    (hl : ∀ q, some q ∈ l → q < h.length) : (l.map (·.getD p)).map (rd (h ++ t)) = slices h l := by
  simp only [slices, List.map_map]
  refine List.map_congr_left fun q hq => ?_
  cases q with
  | none => simpa [slice] using hp
  | some q => simpa [slice] using rd_append (hl q hq)

theorem value_allnone (h : Heap) {l : List (Option Nat)} (hl : l.all (·.isNone) = true) (c : Nat) : value (slices h l) c = 0 := by
  induction l with
  | nil => rfl
  | cons p l ih =>
    simp only [List.all_cons, Bool.and_eq_true] at hl
    cases p with
    | none => simp only [slices, List.map_cons, value] at *; rw [ih hl.2]; simp [slice]
    | some p => exact absurd hl.1 (by simp)

theorem headAt_some {own h r k p} (hr : ROk own h r) (hp : headAt h k r = some p) :
    p < h.length ∧ own p = k ∧ ∃ s t, r = s :: t ∧ s.shard = k ∧ s.data = p := by
  cases r with
  | nil => cases hp
  | cons s t =>
    simp only [headAt] at hp
    split at hp
    · rename_i hs
      cases hp
      obtain ⟨h1, h2⟩ := hr.2 s (by simp)
      exact ⟨h1, h2.trans hs.1, s, t, rfl, hs.1, rfl⟩
    · cases hp

theorem slices_in {own h k} {xs : List Row} (hh : HOk own h) (hx : ∀ r ∈ xs, ROk own h r) :
    ∀ s ∈ slices h (xs.map (headAt h k)), In k s := by
  intro s hs
  simp only [slices, List.mem_map] at hs
  obtain ⟨p, ⟨r, hr, rfl⟩, rfl⟩ := hs
  cases hp : headAt h k r with
  | none => exact In.nil k
  | some p =>
    obtain ⟨_, h2, _⟩ := headAt_some (hx r hr) hp
    exact ⟨(hh p).1, fun x hx => ((hh p).2 x hx).trans h2⟩

theorem addShard_spec {own h k} {xs ys : List Row} (hh : HOk own h) (hx : ∀ r ∈ xs, ROk own h r) (hy : ∀ r ∈ ys, ROk own h r) :
    ∃ own' t, (addShard h (xs.map (headAt h k)) (ys.map (headAt h k))).1 = h ++ t ∧ Ext own h own' (h ++ t) ∧
      HOk own' (h ++ t) ∧
      (∀ p ∈ (addShard h (xs.map (headAt h k)) (ys.map (headAt h k))).2, p < (h ++ t).length ∧ own' p = k) ∧
      ∀ c, value ((addShard h (xs.map (headAt h k)) (ys.map (headAt h k))).2.map (rd (h ++ t))) c =
        value (slices h (xs.map (headAt h k))) c + value (slices h (ys.map (headAt h k))) c := by
  have hptr : ∀ zs : List Row, (∀ r ∈ zs, ROk own h r) → ∀ q, some q ∈ zs.map (headAt h k) → q < h.length ∧ own q = k := by
    intro zs hz q hq
    obtain ⟨r, hr, e⟩ := List.mem_map.1 hq
    obtain ⟨h1, h2, _⟩ := headAt_some (hz r hr) e
    exact ⟨h1, h2⟩
  have hph : rd (h ++ [[]]) h.length = [] := rd_new h []
  have shared : ∀ zs : List Row, (∀ r ∈ zs, ROk own h r) → ∃ own', Ext own h own' (h ++ [[]]) ∧ HOk own' (h ++ [[]]) ∧
      (∀ p ∈ (zs.map (headAt h k)).map (·.getD h.length), p < (h ++ [[]]).length ∧ own' p = k) := by
    intro zs hz
    obtain ⟨own', e1, e2, e3⟩ := alloc_ok hh (In.nil k).1 (In.nil k).2
    refine ⟨own', e1, e2, fun p hp => ?_⟩
    obtain ⟨q, hq, rfl⟩ := List.mem_map.1 hp
    cases q with
    | none => exact ⟨by simp, e3⟩
    | some q =>
      obtain ⟨h1, h2⟩ := hptr zs hz q hq
      exact ⟨by simp; omega, (e1.2 q h1).trans h2⟩
  unfold addShard
  by_cases h1 : (xs.map (headAt h k)).all (·.isNone) = true
  · rw [if_pos h1]
    obtain ⟨own', e1, e2, e3⟩ := shared ys hy
    refine ⟨own', [[]], rfl, e1, e2, e3, fun c => ?_⟩
    rw [slices_getD hph (fun q hq => (hptr ys hy q hq).1), value_allnone h h1, Nat.zero_add]
  · rw [if_neg h1]
    by_cases h2 : (ys.map (headAt h k)).all (·.isNone) = true
    · rw [if_pos h2]
      obtain ⟨own', e1, e2, e3⟩ := shared xs hx
      refine ⟨own', [[]], rfl, e1, e2, e3, fun c => ?_⟩
      rw [slices_getD hph (fun q hq => (hptr xs hx q hq).1), value_allnone h h2, Nat.add_zero]
    · rw [if_neg h2]
      obtain ⟨own', e1, e2, e3⟩ := allocs_ok _ hh
        (rippleAdd_in _ _ _ (slices_in (k := k) hh hx) (slices_in (k := k) hh hy) (In.nil k))
      refine ⟨own', _, rfl, e1, e2, fun p hp => ?_, fun c => ?_⟩
      · simp only [List.mem_range'_1] at hp
        have : p < (h ++ rippleAdd (slices h (xs.map (headAt h k))) (slices h (ys.map (headAt h k))) []).length := by
          rw [List.length_append]; omega
        exact ⟨this, e3 p hp.1 this⟩
      · show value (List.map _ (List.range' _ _)) c = _
        rw [map_rd_range, rippleAdd_value]; simp

/-! ## Emitting segments -/

theorem emit_nil (h : Heap) (k : Nat) (dst : List Row) : emit h k dst [] = dst := by
  cases dst <;> simp [emit]

theorem columns_snoc (h : Heap) (d : Row) (s : Seg) : columns h (d ++ [s]) = columns h d ++ rd h s.data := by
  simp [columns]

theorem value_empty (l : List (List Nat)) (c : Nat) (h : ∀ s ∈ l, c ∉ s) : value l c = 0 := by
  induction l with
  | nil => rfl
  | cons s l ih =>
    simp only [value, if_neg (h s (by simp)), ih (fun s hs => h s (List.mem_cons_of_mem _ hs))]

/-- A row of the result so far. -/
def Part (own : Nat → Nat) (h : Heap) (k : Nat) (r : Row) : Prop := ROk own h r ∧ RCnt h r ∧ ∀ s ∈ r, s.shard < k

theorem emit_spec {own h k} (ps : List Nat) (dst : List Row) (hh : HOk own h) (hd : ∀ r ∈ dst, Part own h k r)
    (hp : ∀ p ∈ ps, p < h.length ∧ own p = k) :
    (∀ r ∈ emit h k dst ps, Part own h (k + 1) r) ∧
    ∀ c, value (sets h (emit h k dst ps)) c = value (sets h dst) c + value (ps.map (rd h)) c := by
  have weak : ∀ r, Part own h k r → Part own h (k + 1) r := fun r hr => ⟨hr.1, hr.2.1, fun s hs => by have := hr.2.2 s hs; omega⟩
  have one : ∀ (d : Row) (p : Nat), Part own h k d → p < h.length ∧ own p = k →
      Part own h (k + 1) (d ++ [{ shard := k, data := p, writable := true, n := (rd h p).length }]) := by
    intro d p hd hp
    refine ⟨⟨List.pairwise_append.2 ⟨hd.1.1, by simp, fun a ha b hb => ?_⟩, fun s hs => ?_⟩, fun s hs => ?_, fun s hs => ?_⟩
    · simp at hb; subst hb; exact hd.2.2 a ha
    all_goals rcases List.mem_append.1 hs with hs | hs
    · exact hd.1.2 s hs
    · simp at hs; subst hs; exact hp
    · exact hd.2.1 s hs
    · simp at hs; subst hs; rfl
    · have := hd.2.2 s hs; omega
    · simp at hs; subst hs; simp
  have disj : ∀ (d : Row) (p c : Nat), Part own h k d → p < h.length ∧ own p = k → c ∈ columns h d → c ∈ rd h p → False := by
    intro d p c hd hp h1 h2
    obtain ⟨s, hs, hc⟩ := mem_columns.1 h1
    have a := seg_bits hh hd.1 hs hc
    have b := (hh p).2 c h2
    have := hd.2.2 s hs
    omega
  induction ps generalizing dst with
  | nil => rw [emit_nil]; exact ⟨fun r hr => weak r (hd r hr), fun c => by simp [value]⟩
  | cons p ps ih =>
    have hp0 := hp p (by simp)
    have hps := fun q hq => hp q (List.mem_cons_of_mem _ hq)
    cases dst with
    | nil =>
      by_cases hall : (p :: ps).all (fun q => decide (rd h q = [])) = true
      · have e : emit h k [] (p :: ps) = [] := by rw [emit, if_pos hall]
        rw [e]
        refine ⟨by simp, fun c => ?_⟩
        rw [value_empty ((p :: ps).map (rd h))]
        · simp [sets]
        · intro s hs
          obtain ⟨q, hq, rfl⟩ := List.mem_map.1 hs
          have := List.all_eq_true.1 hall q hq
          simp only [decide_eq_true_eq] at this
          rw [this]; simp
      · obtain ⟨i1, i2⟩ := ih [] (by simp) hps
        have e : emit h k [] (p :: ps) = (if rd h p = [] then [] else
            [{ shard := k, data := p, writable := true, n := (rd h p).length }]) :: emit h k [] ps := by
          rw [emit, if_neg hall]
        have hnil : Part own h k [] := ⟨⟨List.Pairwise.nil, by simp⟩, by simp [RCnt], by simp⟩
        rw [e]
        constructor
        · intro r hr
          rcases List.mem_cons.1 hr with rfl | hr
          · split
            · exact weak _ hnil
            · exact one [] p hnil hp0
          · exact i1 r hr
        · intro c
          have := i2 c
          simp only [sets, List.map_cons, List.map_nil, value] at this ⊢
          rw [this]
          by_cases h0 : rd h p = []
          · simp [h0, columns]
          · simp [h0, columns]
    | cons d dst =>
      have hd0 := hd d (by simp)
      obtain ⟨i1, i2⟩ := ih dst (fun r hr => hd r (List.mem_cons_of_mem _ hr)) hps
      have e : emit h k (d :: dst) (p :: ps) = (if rd h p = [] then d else
          d ++ [{ shard := k, data := p, writable := true, n := (rd h p).length }]) :: emit h k dst ps := rfl
      rw [e]
      constructor
      · intro r hr
        rcases List.mem_cons.1 hr with rfl | hr
        · split
          · exact weak _ hd0
          · exact one d p hd0 hp0
        · exact i1 r hr
      · intro c
        have := i2 c
        have hdj := disj d p c hd0 hp0
        simp only [sets, List.map_cons, value] at this ⊢
        rw [this]
        by_cases h0 : rd h p = []
        · rw [if_pos h0, h0]; simp; omega
        · rw [if_neg h0, columns_snoc]
          by_cases h1 : c ∈ columns h d <;> by_cases h2 : c ∈ rd h p
          · exact absurd h2 (hdj h1)
          all_goals simp [h1, h2]
          all_goals omega

/-- The highest row is not empty. -/
def Tight : List (List Nat) → Prop
  | [] => True
  | s :: ss => (ss = [] → s ≠ []) ∧ Tight ss

theorem emit_tight {h : Heap} {k : Nat} (ps : List Nat) (dst : List Row) (hd : Tight (sets h dst)) : Tight (sets h (emit h k dst ps)) := by
  induction ps generalizing dst with
  | nil => rw [emit_nil]; exact hd
  | cons p ps ih =>
    cases dst with
    | nil =>
      by_cases hall : (p :: ps).all (fun q => decide (rd h q = [])) = true
      · rw [emit, if_pos hall]; trivial
      · rw [emit, if_neg hall]
        refine ⟨fun he => ?_, ih [] trivial⟩
        have hp : rd h p ≠ [] := by
          intro hp
          refine hall ?_
          rw [List.all_cons, hp]
          cases ps with
          | nil => rfl
          | cons q ps =>
            by_cases h' : (q :: ps).all (fun q => decide (rd h q = [])) = true
            · rw [h']; rfl
            · rw [emit, if_neg h'] at he; cases he
        rw [if_neg hp]; simpa [columns] using hp
    | cons d dst =>
      refine ⟨fun he => ?_, ih dst hd.2⟩
      have : dst = [] := by
        cases dst with
        | nil => rfl
        | cons d' dst' => cases ps <;> simp [emit] at he
      have hd0 := hd.1 (by simp [this])
      split
      · exact hd0
      · rw [columns_snoc]; simp [hd0]

theorem Tight.last {ss : List (List Nat)} (h : Tight ss) {n : Nat} (hn : ss.length = n + 1) : ss.getD n [] ≠ [] := by
  induction ss generalizing n with
  | nil => cases hn
  | cons s ss ih =>
    simp only [List.length_cons, Nat.add_right_cancel_iff] at hn
    cases n with
    | zero => exact h.1 (List.length_eq_zero_iff.1 hn)
    | succ n => exact ih h.2 hn

/-! ## The loop -/

theorem nextShard_none {l : List Row} (h : nextShard l = none) : ∀ r ∈ l, r = [] := by
  induction l with
  | nil => simp
  | cons r l ih =>
    cases r with
    | nil => intro r hr; rcases List.mem_cons.1 hr with rfl | hr; · rfl
             exact ih h r hr
    | cons s t =>
      simp only [nextShard] at h
      cases hn : nextShard l with
      | none => rw [hn] at h; cases h
      | some k => rw [hn] at h; simp only at h; split at h <;> cases h

theorem nextShard_some {l : List Row} {k} (h : nextShard l = some k) :
    (∃ s t, s :: t ∈ l ∧ s.shard = k) ∧ ∀ s t, s :: t ∈ l → k ≤ s.shard := by
  induction l generalizing k with
  | nil => cases h
  | cons r l ih =>
    cases r with
    | nil =>
      obtain ⟨⟨s, t, h1, h2⟩, h3⟩ := ih h
      refine ⟨⟨s, t, List.mem_cons_of_mem _ h1, h2⟩, fun s t hs => ?_⟩
      rcases List.mem_cons.1 hs with e | hs
      · cases e
      · exact h3 s t hs
    | cons s t =>
      simp only [nextShard] at h
      cases hn : nextShard l with
      | none =>
        rw [hn] at h
        simp only [Option.some.injEq] at h
        refine ⟨⟨s, t, by simp, h⟩, fun s' t' hs => ?_⟩
        rcases List.mem_cons.1 hs with e | hs
        · cases e; omega
        · cases nextShard_none hn _ hs
      | some j =>
        rw [hn] at h
        obtain ⟨⟨s1, t1, a1, a2⟩, a3⟩ := ih hn
        simp only at h
        split at h
        · simp only [Option.some.injEq] at h
          refine ⟨⟨s, t, by simp, h⟩, fun s' t' hs => ?_⟩
          rcases List.mem_cons.1 hs with e | hs
          · cases e; omega
          · have := a3 _ _ hs; omega
        · simp only [Option.some.injEq] at h
          refine ⟨⟨s1, t1, List.mem_cons_of_mem _ a1, by omega⟩, fun s' t' hs => ?_⟩
          rcases List.mem_cons.1 hs with e | hs
          · cases e; omega
          · have := a3 _ _ hs; omega

theorem tailAt_ok {own h r k} (hr : ROk own h r) : ROk own h (tailAt k r) := by
  cases r with
  | nil => exact hr
  | cons s t =>
    simp only [tailAt]
    split
    · exact ⟨(List.pairwise_cons.1 hr.1).2, fun s hs => hr.2 s (List.mem_cons_of_mem _ hs)⟩
    · exact hr

theorem tailAt_gt {own h r k} (hr : ROk own h r) (hk : ∀ s t, r = s :: t → k ≤ s.shard) : ∀ s ∈ tailAt k r, k < s.shard := by
  intro s hs
  cases r with
  | nil => cases hs
  | cons a t =>
    have h1 := hk a t rfl
    have h2 := (List.pairwise_cons.1 hr.1).1
    simp only [tailAt] at hs
    split at hs
    · have := h2 s hs; omega
    · rcases List.mem_cons.1 hs with rfl | hs
      · omega
      · have := h2 s hs; omega

theorem round_value {own h k} (xs : List Row) (hh : HOk own h) (hx : ∀ r ∈ xs, ROk own h r)
    (hk : ∀ s t, s :: t ∈ xs → k ≤ s.shard) (c : Nat) :
    value (sets h xs) c = value (slices h (xs.map (headAt h k))) c + value (sets h (xs.map (tailAt k))) c := by
  induction xs with
  | nil => rfl
  | cons r xs ih =>
    have := ih (fun r hr => hx r (List.mem_cons_of_mem _ hr)) (fun s t hs => hk s t (List.mem_cons_of_mem _ hs))
    have hr := hx r (by simp)
    simp only [sets, slices, List.map_cons, value] at this ⊢
    rw [this]
    cases r with
    | nil => simp [columns, headAt, tailAt, slice]; omega
    | cons s t =>
      have hsl : c ∈ slice h (headAt h k (s :: t)) ↔ s.shard = k ∧ c ∈ rd h s.data := by
        by_cases hs : s.shard = k <;> by_cases h0 : rd h s.data = [] <;> simp [headAt, slice, hs, h0]
      have hcol : c ∈ columns h (s :: t) ↔ c ∈ rd h s.data ∨ c ∈ columns h t := by simp [columns]
      have htl : c ∈ columns h (tailAt k (s :: t)) ↔ (s.shard ≠ k ∧ c ∈ rd h s.data) ∨ c ∈ columns h t := by
        by_cases hs : s.shard = k <;> simp [tailAt, hs, columns]
      have hdj : c ∈ rd h s.data → c ∈ columns h t → False := by
        intro h1 h2
        obtain ⟨u, hu, hc⟩ := mem_columns.1 h2
        have a := seg_bits hh hr (by simp) h1
        have b := seg_bits hh hr (List.mem_cons_of_mem _ hu) hc
        have := (List.pairwise_cons.1 hr.1).1 u hu
        omega
      simp only [hsl, hcol, htl]
      by_cases hs : s.shard = k <;> by_cases h1 : c ∈ rd h s.data <;> by_cases h2 : c ∈ columns h t
      all_goals first
        | exact (hdj h1 h2).elim
        | simp [h1, h2, hs]
      all_goals omega

theorem tailAt_length (k : Nat) (r : Row) : (tailAt k r).length ≤ r.length := by
  cases r with
  | nil => simp [tailAt]
  | cons s t => simp only [tailAt]; split <;> simp

theorem total_le (k : Nat) (l : List Row) : ((l.map (tailAt k)).map List.length).sum ≤ (l.map List.length).sum := by
  induction l with
  | nil => simp
  | cons r l ih => have := tailAt_length k r; simp only [List.map_cons, List.sum_cons]; omega

theorem total_lt {k : Nat} {l : List Row} (h : ∃ s t, s :: t ∈ l ∧ s.shard = k) :
    ((l.map (tailAt k)).map List.length).sum < (l.map List.length).sum := by
  induction l with
  | nil => obtain ⟨_, _, h, _⟩ := h; cases h
  | cons r l ih =>
    obtain ⟨s, t, hm, e⟩ := h
    simp only [List.map_cons, List.sum_cons]
    rcases List.mem_cons.1 hm with rfl | hm
    · have := total_le k l
      simp only [tailAt, if_pos e, List.length_cons]; omega
    · have := ih ⟨s, t, hm, e⟩
      have := tailAt_length k r
      omega

theorem mem_le_sum {l : List Nat} {a : Nat} (h : a ∈ l) : a ≤ l.sum := by
  induction l with
  | nil => cases h
  | cons b l ih =>
    rw [List.sum_cons]
    rcases List.mem_cons.1 h with rfl | h
    · omega
    · have := ih h; omega

theorem sets_append {own h} (t : Heap) (l : List Row) (hl : ∀ r ∈ l, ROk own h r) : sets (h ++ t) l = sets h l :=
  List.map_congr_left fun r hr => columns_append (hl r hr) t

theorem addLoop_spec (f : Nat) {own h} (xs ys dst : List Row) (hh : HOk own h) (hx : ∀ r ∈ xs, ROk own h r)
    (hy : ∀ r ∈ ys, ROk own h r) (hd : ∀ r ∈ dst, ROk own h r ∧ RCnt h r)
    (hlt : ∀ r ∈ dst, ∀ s ∈ r, ∀ r' ∈ xs ++ ys, ∀ s' ∈ r', s.shard < s'.shard)
    (hf : ((xs ++ ys).map List.length).sum ≤ f) :
    ∃ own' t, (addLoop f h xs ys dst).1 = h ++ t ∧ Ext own h own' (h ++ t) ∧ HOk own' (h ++ t) ∧
      (∀ r ∈ (addLoop f h xs ys dst).2, ROk own' (h ++ t) r ∧ RCnt (h ++ t) r) ∧
      ∀ c, value (sets (h ++ t) (addLoop f h xs ys dst).2) c =
        value (sets h dst) c + value (sets h xs) c + value (sets h ys) c := by
  have stop : (∀ r ∈ xs ++ ys, r = []) → ∃ own' t, (h, dst).1 = h ++ t ∧ Ext own h own' (h ++ t) ∧ HOk own' (h ++ t) ∧
      (∀ r ∈ (h, dst).2, ROk own' (h ++ t) r ∧ RCnt (h ++ t) r) ∧
      ∀ c, value (sets (h ++ t) (h, dst).2) c = value (sets h dst) c + value (sets h xs) c + value (sets h ys) c := by
    intro he
    refine ⟨own, [], by simp, by simpa using Ext.refl _ _, by simpa using hh, by simpa using hd, fun c => ?_⟩
    have e : ∀ zs : List Row, (∀ r ∈ zs, r = []) → value (sets h zs) c = 0 := by
      intro zs hz
      refine value_empty _ _ fun s hs => ?_
      obtain ⟨r, hr, rfl⟩ := List.mem_map.1 hs
      rw [hz r hr]; simp [columns]
    rw [e xs (fun r hr => he r (by simp [hr])), e ys (fun r hr => he r (by simp [hr]))]
    simp
  induction f generalizing own h xs ys dst with
  | zero =>
    refine stop fun r hr => List.length_eq_zero_iff.1 ?_
    have : r.length ≤ ((xs ++ ys).map List.length).sum := mem_le_sum (List.mem_map.2 ⟨r, hr, rfl⟩)
    omega
  | succ f ih =>
    unfold addLoop
    cases hn : nextShard (xs ++ ys) with
    | none => exact stop (nextShard_none hn)
    | some k =>
      obtain ⟨hex, hmin⟩ := nextShard_some hn
      obtain ⟨own1, t1, a1, a2, a3, a4, a5⟩ := addShard_spec (k := k) hh hx hy
      simp only [a1]
      generalize hps : (addShard h (xs.map (headAt h k)) (ys.map (headAt h k))).2 = ps at a4 a5
      have hdk : ∀ r ∈ dst, Part own1 (h ++ t1) k r := by
        intro r hr
        refine ⟨(hd r hr).1.ext a2, (hd r hr).2.append (hd r hr).1 t1, fun s hs => ?_⟩
        obtain ⟨s', t', hm, e⟩ := hex
        have := hlt r hr s hs _ hm s' (by simp)
        omega
      obtain ⟨m1, m2⟩ := emit_spec ps dst a3 hdk a4
      have hx1 : ∀ r ∈ xs.map (tailAt k), ROk own1 (h ++ t1) r := by
        intro r hr
        obtain ⟨r', hr', rfl⟩ := List.mem_map.1 hr
        exact tailAt_ok ((hx r' hr').ext a2)
      have hy1 : ∀ r ∈ ys.map (tailAt k), ROk own1 (h ++ t1) r := by
        intro r hr
        obtain ⟨r', hr', rfl⟩ := List.mem_map.1 hr
        exact tailAt_ok ((hy r' hr').ext a2)
      have hlen := total_lt hex
      rw [List.map_append] at hlen
      have hlt1 : ∀ r ∈ emit (h ++ t1) k dst ps, ∀ s ∈ r, ∀ r' ∈ xs.map (tailAt k) ++ ys.map (tailAt k), ∀ s' ∈ r', s.shard < s'.shard := by
        intro r hr s hs r' hr' s' hs'
        have := (m1 r hr).2.2 s hs
        rw [← List.map_append] at hr'
        obtain ⟨r0, hr0, rfl⟩ := List.mem_map.1 hr'
        have hok : ROk own h r0 := by
          rcases List.mem_append.1 hr0 with h | h
          · exact hx r0 h
          · exact hy r0 h
        have := tailAt_gt hok (fun s t e => hmin s t (e ▸ hr0)) s' hs'
        omega
      have main := ih (xs.map (tailAt k)) (ys.map (tailAt k)) (emit (h ++ t1) k dst ps) a3 hx1 hy1
        (fun r hr => ⟨(m1 r hr).1, (m1 r hr).2.1⟩) hlt1 (by omega) (by
          intro he
          refine ⟨own1, [], by simp, by simpa using Ext.refl _ _, by simpa using a3,
            by simpa using fun r hr => (⟨(m1 r hr).1, (m1 r hr).2.1⟩ : _ ∧ _), fun c => ?_⟩
          have e : ∀ zs : List Row, (∀ r ∈ zs, r = []) → value (sets (h ++ t1) zs) c = 0 := by
            intro zs hz
            refine value_empty _ _ fun s hs => ?_
            obtain ⟨r, hr, rfl⟩ := List.mem_map.1 hs
            rw [hz r hr]; simp [columns]
          rw [e (xs.map (tailAt k)) (fun r hr => he r (by rw [List.mem_append]; exact Or.inl hr)),
            e (ys.map (tailAt k)) (fun r hr => he r (by rw [List.mem_append]; exact Or.inr hr))]
          simp)
      obtain ⟨own2, t2, b1, b2, b3, b4, b5⟩ := main
      refine ⟨own2, t1 ++ t2, by rw [b1, List.append_assoc], ?_, ?_, ?_, ?_⟩
      · rw [← List.append_assoc]; exact a2.trans b2
      · rw [← List.append_assoc]; exact b3
      · rw [← List.append_assoc]; exact b4
      · intro c
        rw [← List.append_assoc, b5, m2, a5]
        rw [round_value xs hh hx (fun s t hs => hmin s t (by simp [hs])) c, round_value ys hh hy (fun s t hs => hmin s t (by simp [hs])) c]
        rw [sets_append t1 dst (fun r hr => (hd r hr).1),
          sets_append t1 (xs.map (tailAt k)) (fun r hr => by
            obtain ⟨r', hr', rfl⟩ := List.mem_map.1 hr; exact tailAt_ok (hx r' hr')),
          sets_append t1 (ys.map (tailAt k)) (fun r hr => by
            obtain ⟨r', hr', rfl⟩ := List.mem_map.1 hr; exact tailAt_ok (hy r' hr'))]
        omega

theorem addLoop_tight (f : Nat) {own h} (xs ys dst : List Row) (hh : HOk own h) (hx : ∀ r ∈ xs, ROk own h r)
    (hy : ∀ r ∈ ys, ROk own h r) (hd : ∀ r ∈ dst, ROk own h r ∧ RCnt h r)
    (hlt : ∀ r ∈ dst, ∀ s ∈ r, ∀ r' ∈ xs ++ ys, ∀ s' ∈ r', s.shard < s'.shard) (ht : Tight (sets h dst)) :
    Tight (sets (addLoop f h xs ys dst).1 (addLoop f h xs ys dst).2) := by
  induction f generalizing own h xs ys dst with
  | zero => exact ht
  | succ f ih =>
    unfold addLoop
    cases hn : nextShard (xs ++ ys) with
    | none => exact ht
    | some k =>
      obtain ⟨hex, hmin⟩ := nextShard_some hn
      obtain ⟨own1, t1, a1, a2, a3, a4, a5⟩ := addShard_spec (k := k) hh hx hy
      simp only [a1]
      generalize hps : (addShard h (xs.map (headAt h k)) (ys.map (headAt h k))).2 = ps at a4 a5
      have hdk : ∀ r ∈ dst, Part own1 (h ++ t1) k r := by
        intro r hr
        refine ⟨(hd r hr).1.ext a2, (hd r hr).2.append (hd r hr).1 t1, fun s hs => ?_⟩
        obtain ⟨s', t', hm, e⟩ := hex
        have := hlt r hr s hs _ hm s' (by simp)
        omega
      obtain ⟨m1, m2⟩ := emit_spec ps dst a3 hdk a4
      refine ih (xs.map (tailAt k)) (ys.map (tailAt k)) (emit (h ++ t1) k dst ps) a3 ?_ ?_
        (fun r hr => ⟨(m1 r hr).1, (m1 r hr).2.1⟩) ?_ (emit_tight ps dst (by rw [sets_append t1 dst fun r hr => (hd r hr).1]; exact ht))
      · intro r hr
        obtain ⟨r', hr', rfl⟩ := List.mem_map.1 hr
        exact tailAt_ok ((hx r' hr').ext a2)
      · intro r hr
        obtain ⟨r', hr', rfl⟩ := List.mem_map.1 hr
        exact tailAt_ok ((hy r' hr').ext a2)
      · intro r hr s hs r' hr' s' hs'
        have := (m1 r hr).2.2 s hs
        rw [← List.map_append] at hr'
        obtain ⟨r0, hr0, rfl⟩ := List.mem_map.1 hr'
        have hok : ROk own h r0 := by
          rcases List.mem_append.1 hr0 with h | h
          · exact hx r0 h
          · exact hy r0 h
        have := tailAt_gt hok (fun s t e => hmin s t (e ▸ hr0)) s' hs'
        omega

theorem addBSI_tight {own h} (x y : List Row) (hh : HOk own h) (hx : ∀ r ∈ x, ROk own h r) (hy : ∀ r ∈ y, ROk own h r) :
    Tight (sets (addBSI h x y).1 (addBSI h x y).2) :=
  addLoop_tight _ x y [] hh hx hy (by simp) (by simp) trivial

theorem addBSI_spec {own h} (x y : List Row) (hh : HOk own h) (hx : ∀ r ∈ x, ROk own h r) (hy : ∀ r ∈ y, ROk own h r) :
    ∃ own' t, (addBSI h x y).1 = h ++ t ∧ Ext own h own' (h ++ t) ∧ HOk own' (h ++ t) ∧
      (∀ r ∈ (addBSI h x y).2, ROk own' (h ++ t) r ∧ RCnt (h ++ t) r) ∧
      ∀ c, value (sets (h ++ t) (addBSI h x y).2) c = value (sets h x) c + value (sets h y) c := by
  obtain ⟨own', t, h1, h2, h3, h4, h5⟩ := addLoop_spec _ x y [] hh hx hy (by simp) (by simp) (Nat.le_refl _)
  exact ⟨own', t, h1, h2, h3, h4, fun c => by rw [← Nat.zero_add (value (sets h x) c)]; exact h5 c⟩

end Verif.Rw
