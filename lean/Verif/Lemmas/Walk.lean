import Verif.Lemmas.Quantum
/-!
# The walks of `viewsByTimeRange`
-/
namespace Verif.Qm
open Tm Js Cal

theorem mem_cons_list {v w : Bytes} {l : List Bytes} : v ∈ w :: l ↔ v = w ∨ v ∈ l := List.mem_cons

/-! ## Hours -/

theorem downH (b : Int) (v : Bytes) : ∀ (n : Nat) (t : Int), b - t ≤ n * hour →
    (v ∈ downLoop [.H] b n t ↔ ∃ k : Nat, t + k * hour < b ∧ v = viewByTimeUnit .H (t + k * hour)) := by
  intro n
  induction n with
  | zero =>
    intro t h
    simp only [downLoop, List.not_mem_nil, false_iff]
    rintro ⟨k, hk, -⟩
    unfold hour at *; omega
  | succ n ih =>
    intro t h
    by_cases hb : t < b
    · have e : downLoop [.H] b (n + 1) t = viewByTimeUnit .H t :: downLoop [.H] b n (t + hour) := by simp [downLoop, hb]
      rw [e, List.mem_cons, ih (t + hour) (by unfold hour at *; omega)]
      constructor
      · rintro (h | ⟨k, hk, hv⟩)
        · exact ⟨0, by simpa using hb, by simpa using h⟩
        · have : t + hour + k * hour = t + (k + 1 : Nat) * hour := by unfold hour; omega
          exact ⟨k + 1, by rw [← this]; exact hk, by rw [← this]; exact hv⟩
      · rintro ⟨k, hk, hv⟩
        cases k with
        | zero => left; simpa using hv
        | succ k =>
          have : t + hour + k * hour = t + (k + 1 : Nat) * hour := by unfold hour; omega
          exact Or.inr ⟨k, by rw [this]; exact hk, by rw [this]; exact hv⟩
    · have e : downLoop [.H] b (n + 1) t = [] := by simp [downLoop, hb]
      rw [e]
      simp only [List.not_mem_nil, false_iff]
      rintro ⟨k, hk, -⟩
      unfold hour at *; omega

theorem upH (b : Int) (v : Bytes) (m : Nat) : ∀ (n : Nat) (t : Int), b - t ≤ m * hour →
    (v ∈ (upLoop [.H] b n t).1 ++ downLoop [.H] b m (upLoop [.H] b n t).2 ↔ ∃ k : Nat, t + k * hour < b ∧ v = viewByTimeUnit .H (t + k * hour)) := by
  intro n
  induction n with
  | zero => intro t h; simp only [upLoop, List.nil_append]; exact downH b v m t h
  | succ n ih =>
    intro t h
    by_cases hb : t < b
    · by_cases hc : nextDayGTE t b = true ∧ hourOf t ≠ 0
      · have e : upLoop [.H] b (n + 1) t = (viewByTimeUnit .H t :: (upLoop [.H] b n (t + hour)).1, (upLoop [.H] b n (t + hour)).2) := by
          simp [upLoop, hb, hc.1, hc.2]
        rw [e]
        simp only [List.cons_append]
        rw [List.mem_cons, ih (t + hour) (by unfold hour at *; omega)]
        constructor
        · rintro (h | ⟨k, hk, hv⟩)
          · exact ⟨0, by simpa using hb, by simpa using h⟩
          · have : t + hour + k * hour = t + (k + 1 : Nat) * hour := by unfold hour; omega
            exact ⟨k + 1, by rw [← this]; exact hk, by rw [← this]; exact hv⟩
        · rintro ⟨k, hk, hv⟩
          cases k with
          | zero => left; simpa using hv
          | succ k =>
            have : t + hour + k * hour = t + (k + 1 : Nat) * hour := by unfold hour; omega
            exact Or.inr ⟨k, by rw [this]; exact hk, by rw [this]; exact hv⟩
      · have e : upLoop [.H] b (n + 1) t = ([], t) := by
          simp only [upLoop]
          by_cases h1 : nextDayGTE t b = true
          · have : hourOf t = 0 := by
              by_cases h2 : hourOf t = 0
              · exact h2
              · exact absurd ⟨h1, h2⟩ hc
            simp [hb, h1, this]
          · simp [hb, Bool.eq_false_iff.2 h1]
        rw [e]; simp only [List.nil_append]; exact downH b v m t h
    · have e : upLoop [.H] b (n + 1) t = ([], t) := by simp [upLoop, hb]
      rw [e]; simp only [List.nil_append]; exact downH b v m t h

theorem fuel (a b : Int) : b - a ≤ ((((b - a) / hour).toNat + 1 : Nat) : Int) * hour := by
  unfold hour; omega

theorem views_H {a b : Int} {v : Bytes} : v ∈ viewsByTimeRange a b .H ↔ ∃ k : Nat, a + k * hour < b ∧ v = viewByTimeUnit .H (a + k * hour) :=
  upH b v _ _ a (fuel a b)

/-! ## Units that are numbered -/

/-- A walk that takes the name of a numbered period and goes to the next one. -/
structure Numbered (u : TUnit) (b : Int) (P : Int → Prop) (idx : Int → Int) (stp : Int → Int) (c : Int → Bool) : Prop where
  lb : Late b
  mono : ∀ s t, Late s → s ≤ t → idx s ≤ idx t
  name : ∀ s t, Late s → Late t → idx s = idx t → viewByTimeUnit u s = viewByTimeUnit u t
  late : ∀ t, P t → Late t
  next : ∀ t, P t → P (stp t) ∧ idx (stp t) = idx t + 1 ∧ t + hour ≤ stp t
  down : ∀ n t, P t → downLoop [u] b (n + 1) t = if idx t < idx b then viewByTimeUnit u t :: downLoop [u] b n (stp t) else []
  up : ∀ n t, P t → upLoop [u] b (n + 1) t =
    if c t = true then (viewByTimeUnit u t :: (upLoop [u] b n (stp t)).1, (upLoop [u] b n (stp t)).2) else ([], t)
  sound : ∀ t, P t → c t = true → idx t < idx b

variable {u : TUnit} {b : Int} {P : Int → Prop} {idx stp : Int → Int} {c : Int → Bool}

theorem Numbered.mem_down (N : Numbered u b P idx stp c) (v : Bytes) : ∀ (n : Nat) (t : Int), P t → b - t ≤ n * hour →
    (v ∈ downLoop [u] b n t ↔ ∃ x, Late x ∧ idx t ≤ idx x ∧ idx x < idx b ∧ v = viewByTimeUnit u x) := by
  intro n
  induction n with
  | zero =>
    intro t hP h
    simp only [downLoop, List.not_mem_nil, false_iff]
    rintro ⟨x, -, h1, h2, -⟩
    have := N.mono b t N.lb (by unfold hour at *; omega)
    omega
  | succ n ih =>
    intro t hP h
    obtain ⟨n1, n2, n3⟩ := N.next t hP
    rw [N.down n t hP]
    by_cases hi : idx t < idx b
    · rw [if_pos hi, List.mem_cons, ih (stp t) n1 (by unfold hour at *; omega)]
      constructor
      · rintro (h | ⟨x, h0, h1, h2, h3⟩)
        · exact ⟨t, N.late t hP, Int.le_refl _, hi, h⟩
        · exact ⟨x, h0, by omega, h2, h3⟩
      · rintro ⟨x, h0, h1, h2, h3⟩
        by_cases he : idx t = idx x
        · left; rw [h3]; exact N.name x t h0 (N.late t hP) he.symm
        · exact Or.inr ⟨x, h0, by omega, h2, h3⟩
    · rw [if_neg hi]
      simp only [List.not_mem_nil, false_iff]
      rintro ⟨x, -, h1, h2, -⟩
      omega

theorem Numbered.mem_up (N : Numbered u b P idx stp c) (v : Bytes) (m : Nat) : ∀ (n : Nat) (t : Int), P t → b - t ≤ m * hour →
    (v ∈ (upLoop [u] b n t).1 ++ downLoop [u] b m (upLoop [u] b n t).2 ↔ ∃ x, Late x ∧ idx t ≤ idx x ∧ idx x < idx b ∧ v = viewByTimeUnit u x) := by
  intro n
  induction n with
  | zero => intro t hP h; simp only [upLoop, List.nil_append]; exact N.mem_down v m t hP h
  | succ n ih =>
    intro t hP h
    obtain ⟨n1, n2, n3⟩ := N.next t hP
    rw [N.up n t hP]
    by_cases hc : c t = true
    · rw [if_pos hc]
      have hi := N.sound t hP hc
      simp only [List.cons_append]
      rw [List.mem_cons, ih (stp t) n1 (by unfold hour at *; omega)]
      constructor
      · rintro (h | ⟨x, h0, h1, h2, h3⟩)
        · exact ⟨t, N.late t hP, Int.le_refl _, hi, h⟩
        · exact ⟨x, h0, by omega, h2, h3⟩
      · rintro ⟨x, h0, h1, h2, h3⟩
        by_cases he : idx t = idx x
        · left; rw [h3]; exact N.name x t h0 (N.late t hP) he.symm
        · exact Or.inr ⟨x, h0, by omega, h2, h3⟩
    · rw [if_neg hc]; simp only [List.nil_append]; exact N.mem_down v m t hP h

theorem Numbered.mem (N : Numbered u b P idx stp c) {a : Int} (ha : P a) (v : Bytes) :
    v ∈ viewsByTimeRange a b u ↔ ∃ x, Late x ∧ idx a ≤ idx x ∧ idx x < idx b ∧ v = viewByTimeUnit u x :=
  N.mem_up v _ _ a ha (fuel a b)

/-! ## Names -/

theorem name_eq {t : Int} (h : Late t) (u : TUnit) : viewByTimeUnit u t = unitName u (civil t) (hourOf t) := by
  obtain ⟨e, -, -, -⟩ := civil_spec h
  have e' : ymdh t = pad4 (civil t).y ++ pad2 (civil t).m ++ pad2 (civil t).d ++ pad2 (hourOf t) := by
    unfold ymdh; rw [e]; simp
  unfold viewByTimeUnit
  rw [e']
  cases u <;> simp [unitName, pad4, pad2]

theorem civil_day {s t : Int} (hs : Late s) (ht : Late t) (h : s / dayNs = t / dayNs) : civil s = civil t :=
  isTime_same_day (isTime_civil hs) (isTime_civil ht) h

theorem day_mono {s t : Int} (h : s ≤ t) : s / dayNs ≤ t / dayNs := by unfold dayNs; omega

theorem date_eq_iff {s t : Int} (hs : Late s) (ht : Late t) : date s = date t ↔ s / dayNs = t / dayNs := by
  obtain ⟨e1, v1, -, n1⟩ := civil_spec hs
  obtain ⟨e2, v2, -, n2⟩ := civil_spec ht
  constructor
  · intro h
    rw [e1, e2] at h
    simp only [Prod.mk.injEq] at h
    have : civil s = civil t := by
      obtain ⟨h1, h2, h3⟩ := h
      have h1' : (civil s).y = (civil t).y := by omega
      cases hs : civil s; cases ht : civil t
      rw [hs, ht] at h1' h2 h3
      simp only at h1' h2 h3
      rw [h1', h2, h3]
    rw [← n1, ← n2, this]
  · intro h
    rw [e1, e2, civil_day hs ht h]

/-! ## Days -/

theorem nextDay_iff {t b : Int} (ht : Late t) (hb : Late b) : nextDayGTE t b = true ↔ t / dayNs < b / dayNs := by
  have hl : Late (t + dayNs) := late_mono (by unfold dayNs; omega) ht
  unfold nextDayGTE
  rw [Bool.or_eq_true, decide_eq_true_iff, decide_eq_true_iff, date_eq_iff hl hb]
  unfold dayNs
  omega

theorem mi_lt {t b : Int} (ht : Late t) (hb : Late b) (h : nextMonthGTE t b = true) : mi t < mi b := by
  obtain ⟨L, m, -⟩ := late_addMonth1 ht
  unfold nextMonthGTE at h
  rw [Bool.or_eq_true, decide_eq_true_iff, decide_eq_true_iff] at h
  rcases h with ⟨h1, h2⟩ | h
  · obtain ⟨e1, -, -, -⟩ := civil_spec L
    obtain ⟨e2, -, -, -⟩ := civil_spec hb
    rw [e1, e2] at h1 h2
    simp only at h1 h2
    have : mi (addMonth1 t) = mi b := by unfold mi; omega
    omega
  · have := mi_mono L (Int.le_of_lt h)
    omega

theorem day_lt_of_mi {t b : Int} (ht : Late t) (hb : Late b) (h : mi t < mi b) : t / dayNs < b / dayNs := by
  apply Int.lt_of_not_ge
  intro hc
  have e : (civil b).dayNo ≤ (civil t).dayNo := by
    obtain ⟨-, -, -, n1⟩ := civil_spec ht
    obtain ⟨-, -, -, n2⟩ := civil_spec hb
    omega
  have := month_mono (civil_spec hb).2.1 (civil_spec ht).2.1 e
  unfold mi at h; omega

theorem numD {b : Int} (hb : Late b) : Numbered .D b Late (fun t => t / dayNs) (fun t => t + dayNs)
    (fun t => decide (t < b) && nextMonthGTE t b && decide ((date t).2.2 ≠ 1)) where
  lb := hb
  mono := fun s t _ h => day_mono h
  name := fun s t hs ht h => by
    rw [name_eq hs, name_eq ht, civil_day hs ht h]; rfl
  late := fun t h => h
  next := fun t h => ⟨late_mono (by unfold dayNs; omega) h, by unfold dayNs; omega, by unfold dayNs hour; omega⟩
  down := fun n t h => by
    have := nextDay_iff h hb
    by_cases hc : t / dayNs < b / dayNs
    · have hlt : t < b := by unfold dayNs at hc; omega
      simp only [if_pos hc]
      simp [downLoop, hlt, this.2 hc]
    · have hn : nextDayGTE t b = false := Bool.eq_false_iff.2 (fun h => hc (this.1 h))
      simp only [if_neg hc]
      simp [downLoop, hn]
  up := fun n t h => by
    by_cases h1 : t < b
    · by_cases h2 : nextMonthGTE t b = true
      · by_cases h3 : (date t).2.2 = 1 <;> simp [upLoop, h1, h2, h3]
      · simp [upLoop, h1, Bool.eq_false_iff.2 h2]
    · simp [upLoop, h1]
  sound := fun t h hc => by
    simp only [Bool.and_eq_true] at hc
    exact day_lt_of_mi h hb (mi_lt h hb hc.1.2)

/-! ## Months -/

theorem nextMonth_of {t b : Int} (ht : Late t) (hb : Late b) (h : mi (addMonth1 t) ≤ mi b) : nextMonthGTE t b = true := by
  obtain ⟨L, -, -⟩ := late_addMonth1 ht
  unfold nextMonthGTE
  rw [Bool.or_eq_true, decide_eq_true_iff, decide_eq_true_iff]
  by_cases he : mi (addMonth1 t) = mi b
  · left
    obtain ⟨e1, v1, -, -⟩ := civil_spec L
    obtain ⟨e2, v2, -, -⟩ := civil_spec hb
    rw [e1, e2]
    simp only
    have a1 := v1.1
    have a2 := v1.2.1
    have a3 := v2.1
    have a4 := v2.2.1
    unfold mi at he
    omega
  · right
    have := day_lt_of_mi L hb (show mi (addMonth1 t) < mi b by omega)
    unfold dayNs at this; omega

theorem nextMonth_iff {t b : Int} (ht : Late t) (hb : Late b) (h28 : (civil t).d ≤ 28) : nextMonthGTE t b = true ↔ mi t < mi b :=
  ⟨mi_lt ht hb, fun h => nextMonth_of ht hb (by have := (mi_addMonth1 ht h28).1; omega)⟩

/-- `AddDate(0, 1, 0)` overshoots by one month at most. -/
theorem addMonth1_le {t : Int} (h : Late t) : mi (addMonth1 t) ≤ mi t + 2 := by
  obtain ⟨v, y, m, e⟩ := nextFirst_spec h
  obtain ⟨-, hv, -, -⟩ := civil_spec h
  have V := le28_valid (nextFirst t).y (nextFirst t).m 28 v.1 v.2.1 (by omega) (by omega)
  obtain ⟨L, c⟩ := civil_at V y (tod t).1 (tod t).2
  have hm : mi (midnight ⟨(nextFirst t).y, (nextFirst t).m, 28⟩ + t % dayNs) = mi t + 1 := by unfold mi at *; rw [c]; exact m
  have hd : (civil (midnight ⟨(nextFirst t).y, (nextFirst t).m, 28⟩ + t % dayNs)).d = 28 := by rw [c]
  have hs : midnight ⟨(nextFirst t).y, (nextFirst t).m, 28⟩ = midnight (nextFirst t) + 27 * dayNs := by
    have h1 : (nextFirst t).d = 1 := by unfold nextFirst; split <;> rfl
    unfold midnight Date.dayNo dayNs
    simp only [h1]
    generalize daysBeforeYear (nextFirst t).y + daysBeforeMonth (nextFirst t).y (nextFirst t).m = p
    omega
  rw [hs] at L hm hd
  generalize hg : midnight (nextFirst t) + 27 * dayNs + t % dayNs = s1 at *
  obtain ⟨v', y', m', e'⟩ := nextFirst_spec L
  obtain ⟨a, -⟩ := mi_addMonth1 L (by omega)
  obtain ⟨l0, c0⟩ := civil_at v' y' (show (0 : Int) ≤ 0 by omega) (by unfold dayNs; omega)
  have hlt : s1 / dayNs < (midnight (nextFirst s1) + 0) / dayNs :=
    day_lt_of_mi L l0 (by unfold mi at *; rw [c0]; omega)
  have hle : addMonth1 t ≤ addMonth1 s1 := by
    rw [e, e', hd]
    have h31 := monthLen_le (civil t).y (civil t).m
    have hdl := hv.2.2.2
    have hd1 := hv.2.2.1
    have hk : ((civil t).d : Int) ≤ 31 := by omega
    generalize ((civil t).d : Int) = k at hk
    have hmid : midnight (nextFirst s1) % dayNs = 0 := by unfold midnight dayNs; omega
    generalize midnight (nextFirst s1) = w at *
    generalize midnight (nextFirst t) = z at *
    have hz : z % dayNs = 0 ∨ True := Or.inr trivial
    unfold dayNs at *
    omega
  have := mi_mono (late_addMonth1 h).1 hle
  omega

theorem mi_of_year {t b : Int} (ht : Late t) (hb : Late b) (h : (civil t).y < (civil b).y) : mi t < mi b := by
  have a2 := (civil_spec ht).2.1.2.1
  have a3 := (civil_spec hb).2.1.1
  unfold mi; omega

theorem nextYear_iff {t b : Int} (ht : Late t) (hb : Late b) : nextYearGTE t b = true ↔ (civil t).y < (civil b).y := by
  obtain ⟨y1, -, -, L⟩ := addYear_spec ht
  obtain ⟨e1, v1, -, n1⟩ := civil_spec L
  obtain ⟨e2, v2, -, n2⟩ := civil_spec hb
  unfold nextYearGTE
  rw [Bool.or_eq_true, decide_eq_true_iff, decide_eq_true_iff, e1, e2]
  simp only
  constructor
  · rintro (h | h)
    · omega
    · have := yr_mono L (Int.le_of_lt h); omega
  · intro h
    by_cases he : (civil t).y + 1 = (civil b).y
    · left; omega
    · right
      have := day_lt_of_mi L hb (mi_of_year L hb (by omega))
      unfold dayNs at this; omega

theorem name_M {s t : Int} (hs : Late s) (ht : Late t) (h : mi s = mi t) : viewByTimeUnit .M s = viewByTimeUnit .M t := by
  obtain ⟨-, v1, -, -⟩ := civil_spec hs
  obtain ⟨-, v2, -, -⟩ := civil_spec ht
  have a1 := v1.1
  have a2 := v1.2.1
  have a3 := v2.1
  have a4 := v2.2.1
  unfold mi at h
  rw [name_eq hs, name_eq ht]
  have h1 : (civil s).y = (civil t).y := by omega
  have h2 : (civil s).m = (civil t).m := by omega
  simp only [unitName, h1, h2]

def upM (b t : Int) : Bool := decide (t < b) && nextYearGTE t b && decide ((date t).2.1 ≠ 1)

theorem up_M (b : Int) (n : Nat) (t : Int) : upLoop [.M] b (n + 1) t =
    if upM b t = true then (viewByTimeUnit .M t :: (upLoop [.M] b n (addMonth t)).1, (upLoop [.M] b n (addMonth t)).2) else ([], t) := by
  unfold upM
  by_cases h1 : t < b
  · by_cases h2 : nextYearGTE t b = true
    · by_cases h3 : (date t).2.1 = 1 <;> simp [upLoop, h1, h2, h3]
    · simp [upLoop, h1, Bool.eq_false_iff.2 h2]
  · simp [upLoop, h1]

theorem down_M (b : Int) (n : Nat) (t : Int) : downLoop [.M] b (n + 1) t =
    if t < b ∧ nextMonthGTE t b = true then viewByTimeUnit .M t :: downLoop [.M] b n (addMonth t) else [] := by
  by_cases h1 : t < b
  · by_cases h2 : nextMonthGTE t b = true
    · simp [downLoop, h1, h2]
    · simp [downLoop, h1, h2]
  · simp [downLoop, h1]

theorem lt_of_mi {t b : Int} (ht : Late t) (hb : Late b) (h : mi t < mi b) : t < b := by
  have := day_lt_of_mi ht hb h
  unfold dayNs at this; omega

theorem numM {b : Int} (hb : Late b) : Numbered .M b (fun t => Late t ∧ (civil t).d ≤ 28) (fun t => (mi t : Int)) addMonth (upM b) where
  lb := hb
  mono := fun s t hs h => by have := mi_mono hs h; omega
  name := fun s t hs ht h => name_M hs ht (by omega)
  late := fun t h => h.1
  next := fun t h => by
    obtain ⟨h1, h2, h3, h4⟩ := addMonth_spec h.1
    exact ⟨⟨h4, h2⟩, by omega, h3⟩
  down := fun n t h => by
    have := nextMonth_iff h.1 hb h.2
    rw [down_M]
    by_cases hc : mi t < mi b
    · rw [if_pos ⟨lt_of_mi h.1 hb hc, this.2 hc⟩, if_pos (by omega)]
    · rw [if_neg (fun h => hc (this.1 h.2)), if_neg (by omega)]
  up := fun n t _ => up_M b n t
  sound := fun t h hc => by
    unfold upM at hc
    simp only [Bool.and_eq_true] at hc
    have := mi_of_year h.1 hb ((nextYear_iff h.1 hb).1 hc.1.2)
    omega

/-! ## Years -/

theorem numY {b : Int} (hb : Late b) : Numbered .Y b Late (fun t => ((civil t).y : Int)) addYear (fun _ => false) where
  lb := hb
  mono := fun s t hs h => by have := yr_mono hs h; omega
  name := fun s t hs ht h => by
    rw [name_eq hs, name_eq ht]
    have : (civil s).y = (civil t).y := by omega
    simp only [unitName, this]
  late := fun t h => h
  next := fun t h => by
    obtain ⟨h1, h2, h3, h4⟩ := addYear_spec h
    exact ⟨h4, by omega, h3⟩
  down := fun n t h => by
    have := nextYear_iff h hb
    by_cases hc : (civil t).y < (civil b).y
    · have hlt := lt_of_mi h hb (mi_of_year h hb hc)
      rw [if_pos (by omega)]
      simp [downLoop, hlt, this.2 hc]
    · have hn : nextYearGTE t b = false := Bool.eq_false_iff.2 (fun h => hc (this.1 h))
      rw [if_neg (by omega)]
      simp [downLoop, hn]
  up := fun n t _ => by simp [upLoop]
  sound := fun t h hc => (nomatch hc)

/-! ## The views of a range -/

theorem views_D {a b : Int} (ha : Late a) (hb : Late b) (v : Bytes) :
    v ∈ viewsByTimeRange a b .D ↔ ∃ x, Late x ∧ a / dayNs ≤ x / dayNs ∧ x / dayNs < b / dayNs ∧ v = viewByTimeUnit .D x :=
  (numD hb).mem ha v

theorem views_Y {a b : Int} (ha : Late a) (hb : Late b) (v : Bytes) :
    v ∈ viewsByTimeRange a b .Y ↔ ∃ x, Late x ∧ (civil a).y ≤ (civil x).y ∧ (civil x).y < (civil b).y ∧ v = viewByTimeUnit .Y x := by
  refine ((numY hb).mem ha v).trans ⟨?_, ?_⟩
  · rintro ⟨x, h0, h1, h2, h3⟩; exact ⟨x, h0, by omega, by omega, h3⟩
  · rintro ⟨x, h0, h1, h2, h3⟩; exact ⟨x, h0, by omega, by omega, h3⟩

/-- The range of months ends one month early (it is empty) if the first day is after the 28th, the range ends in the next month, and
that is shorter. -/
def Short (a b : Int) : Prop := 28 < (civil a).d ∧ mi b = mi a + 1

theorem views_M_sub {a b : Int} (ha : Late a) (hb : Late b) (v : Bytes) :
    (v ∈ viewsByTimeRange a b .M → ∃ x, Late x ∧ mi a ≤ mi x ∧ mi x < mi b ∧ v = viewByTimeUnit .M x) ∧
    (¬ Short a b → (∃ x, Late x ∧ mi a ≤ mi x ∧ mi x < mi b ∧ v = viewByTimeUnit .M x) → v ∈ viewsByTimeRange a b .M) := by
  by_cases h28 : (civil a).d ≤ 28
  · have := (numM hb).mem ⟨ha, h28⟩ v
    refine ⟨fun h => ?_, fun _ h => this.2 ?_⟩
    · obtain ⟨x, h0, h1, h2, h3⟩ := this.1 h; exact ⟨x, h0, by omega, by omega, h3⟩
    · obtain ⟨x, h0, h1, h2, h3⟩ := h; exact ⟨x, h0, by omega, by omega, h3⟩
  · obtain ⟨g1, g2, g3, g4⟩ := addMonth_spec ha
    obtain ⟨m, hm⟩ : ∃ m, ((b - a) / hour).toNat + 1 = m + 1 := ⟨_, rfl⟩
    have hf := fuel a b
    rw [hm] at hf
    have e : viewsByTimeRange a b .M = (upLoop [.M] b (m + 1) a).1 ++ downLoop [.M] b (m + 1) (upLoop [.M] b (m + 1) a).2 := by
      unfold viewsByTimeRange; simp only; rw [hm]
    have tail : ∀ r : List Bytes, (v ∈ r ↔ ∃ x, Late x ∧ ((mi (addMonth a) : Nat) : Int) ≤ (mi x : Nat) ∧ ((mi x : Nat) : Int) < (mi b : Nat) ∧ v = viewByTimeUnit .M x) →
        mi a < mi b → (v ∈ viewByTimeUnit .M a :: r ↔ ∃ x, Late x ∧ mi a ≤ mi x ∧ mi x < mi b ∧ v = viewByTimeUnit .M x) := by
      intro r hr hlt
      rw [List.mem_cons, hr]
      constructor
      · rintro (h | ⟨x, h0, h1, h2, h3⟩)
        · exact ⟨a, ha, Nat.le_refl _, hlt, h⟩
        · exact ⟨x, h0, by omega, by omega, h3⟩
      · rintro ⟨x, h0, h1, h2, h3⟩
        by_cases he : mi a = mi x
        · left; rw [h3]; exact name_M h0 ha he.symm
        · exact Or.inr ⟨x, h0, by omega, by omega, h3⟩
    rw [e, up_M]
    by_cases hc : upM b a = true
    · rw [if_pos hc]
      have hlt : mi a < mi b := by
        unfold upM at hc
        simp only [Bool.and_eq_true] at hc
        exact mi_of_year ha hb ((nextYear_iff ha hb).1 hc.1.2)
      simp only [List.cons_append]
      have := tail _ ((numM hb).mem_up v (m + 1) m (addMonth a) ⟨g4, g2⟩ (by unfold hour at *; omega)) hlt
      exact ⟨this.1, fun _ => this.2⟩
    · rw [if_neg hc]
      simp only [List.nil_append]
      rw [down_M]
      by_cases hn : a < b ∧ nextMonthGTE a b = true
      · rw [if_pos hn]
        have := tail _ ((numM hb).mem_down v m (addMonth a) ⟨g4, g2⟩ (by unfold hour at *; omega)) (mi_lt ha hb hn.2)
        exact ⟨this.1, fun _ => this.2⟩
      · rw [if_neg hn]
        refine ⟨fun h => (nomatch h), ?_⟩
        rintro hs ⟨x, h0, h1, h2, -⟩
        exfalso
        have hlt : mi a + 2 ≤ mi b := by
          have : ¬ mi b = mi a + 1 := fun h => hs ⟨by omega, h⟩
          omega
        exact hn ⟨lt_of_mi ha hb (by omega), nextMonth_of ha hb (by have := addMonth1_le ha; omega)⟩

end Verif.Qm
