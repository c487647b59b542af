import Verif.Model.Time
import Verif.Spec.Views
import Verif.Lemmas.Bytes
/-! Helper lemmas: Go's date algorithm computes the Gregorian calendar. -/
namespace Verif.Tm
open Cal

theorem leap_iff (y : Nat) : leap y = true ↔ y % 4 = 0 ∧ (y % 100 ≠ 0 ∨ y % 400 = 0) := by
  simp [leap]

theorem daysBeforeYear_closed (y : Nat) :
    daysBeforeYear y + (y + 99) / 100 = 365 * y + (y + 3) / 4 + (y + 399) / 400 := by
  induction y with
  | zero => rfl
  | succ y ih =>
    simp only [daysBeforeYear, yearLen]
    by_cases h : leap y = true
    · rw [if_pos h]
      have := (leap_iff y).1 h
      omega
    · rw [if_neg h]
      have : ¬ (y % 4 = 0 ∧ (y % 100 ≠ 0 ∨ y % 400 = 0)) := fun h' => h ((leap_iff y).2 h')
      omega

theorem goIsLeap_natCast (y : Nat) : goIsLeap (y : Int) = leap y := by
  unfold goIsLeap leap
  have e1 : ((y : Int) % 4 = 0) ↔ (y % 4 = 0) := by omega
  have e2 : ((y : Int) % 100 = 0) ↔ (y % 100 = 0) := by omega
  have e3 : ((y : Int) % 400 = 0) ↔ (y % 400 = 0) := by omega
  simp [e1, e2, e3]

/-- Year and day of year, for days counted from 0001-01-01. -/
theorem absYear_spec (D : Nat) :
    ∃ y yday : Nat, absYear (D + 730692556 * 146097) = ((y : Int), yday) ∧ 1 ≤ y ∧
      daysBeforeYear y + yday = D + 366 ∧ yday < yearLen y := by
  obtain ⟨a, r, hr, rfl⟩ : ∃ a r, r < 146097 ∧ D = 146097 * a + r := ⟨D / 146097, D % 146097, by omega, by omega⟩
  have h1 : (146097 * a + r + 730692556 * 146097) / 146097 = a + 730692556 := by omega
  have h2 : 146097 * a + r + 730692556 * 146097 - 146097 * (a + 730692556) = r := by omega
  unfold absYear
  simp only [h1, h2]
  -- century
  obtain ⟨b, hb⟩ : ∃ b, b = r / 36524 - r / 36524 / 4 := ⟨_, rfl⟩
  rw [← hb]
  obtain ⟨r1, hr1⟩ : ∃ r1, r1 = r - 36524 * b := ⟨_, rfl⟩
  rw [← hr1]
  have hb3 : b ≤ 3 := by omega
  have hr1a : r = 36524 * b + r1 := by omega
  have hr1b : r1 < 36524 ∨ (b = 3 ∧ r1 = 36524) := by omega
  -- four years
  obtain ⟨c, hc⟩ : ∃ c, c = r1 / 1461 := ⟨_, rfl⟩
  rw [← hc]
  obtain ⟨r2, hr2⟩ : ∃ r2, r2 = r1 - 1461 * c := ⟨_, rfl⟩
  rw [← hr2]
  have hc24 : c ≤ 24 := by omega
  have hr2a : r1 = 1461 * c + r2 := by omega
  have hr2b : r2 < 1461 := by omega
  have hr2c : c = 24 → b ≠ 3 → r2 < 1460 := by omega
  -- year
  obtain ⟨e, he⟩ : ∃ e, e = r2 / 365 - r2 / 365 / 4 := ⟨_, rfl⟩
  rw [← he]
  obtain ⟨r3, hr3⟩ : ∃ r3, r3 = r2 - 365 * e := ⟨_, rfl⟩
  rw [← hr3]
  have he3 : e ≤ 3 := by omega
  have hr3a : r2 = 365 * e + r3 := by omega
  have hr3b : r3 < 365 ∨ (e = 3 ∧ r3 = 365) := by omega
  clear hb hr1 hc hr2 he hr3 h1 h2
  refine ⟨400 * a + 100 * b + 4 * c + e + 1, r3, ?_, by omega, ?_, ?_⟩
  · simp only [Prod.mk.injEq, and_true]
    omega
  · have := daysBeforeYear_closed (400 * a + 100 * b + 4 * c + e + 1)
    have q4 : (400 * a + 100 * b + 4 * c + e + 1 + 3) / 4 = 100 * a + 25 * b + c + 1 := by
      clear this hr hr1a hr1b hr2a hr2b hr2c hr3a hr3b; omega
    have q100 : (400 * a + 100 * b + 4 * c + e + 1 + 99) / 100 = 4 * a + b + 1 := by
      clear this hr hr1a hr1b hr2a hr2b hr2c hr3a hr3b; omega
    have q400 : (400 * a + 100 * b + 4 * c + e + 1 + 399) / 400 = a + 1 := by
      clear this hr hr1a hr1b hr2a hr2b hr2c hr3a hr3b; omega
    rw [q4, q100, q400] at this
    omega
  · unfold yearLen
    by_cases hl : leap (400 * a + 100 * b + 4 * c + e + 1) = true
    · rw [if_pos hl]; omega
    · rw [if_neg hl]
      have : ¬ ((400 * a + 100 * b + 4 * c + e + 1) % 4 = 0 ∧
        ((400 * a + 100 * b + 4 * c + e + 1) % 100 ≠ 0 ∨ (400 * a + 100 * b + 4 * c + e + 1) % 400 = 0)) :=
        fun h' => hl ((leap_iff _).2 h')
      rcases hr3b with h | ⟨h, h'⟩
      · exact h
      · subst h
        exfalso
        apply this
        refine ⟨by omega, ?_⟩
        by_cases hcc : c = 24
        · right
          have : b = 3 := by
            apply Decidable.byContradiction
            intro hb'
            have := hr2c hcc hb'
            omega
          omega
        · left; omega

/-- Year tables: month length and days before a month, with the leap flag as argument. -/
def mlen (l : Bool) (m : Nat) : Nat :=
  match m with
  | 1 => 31 | 2 => if l then 29 else 28 | 3 => 31 | 4 => 30 | 5 => 31 | 6 => 30
  | 7 => 31 | 8 => 31 | 9 => 30 | 10 => 31 | 11 => 30 | 12 => 31 | _ => 0
def mbefore (l : Bool) : Nat → Nat
  | 0 => 0
  | m + 1 => mbefore l m + mlen l m

theorem monthLen_eq (y m : Nat) : monthLen y m = mlen (leap y) m := rfl
theorem daysBeforeMonth_eq (y m : Nat) : daysBeforeMonth y m = mbefore (leap y) m := by
  induction m with
  | zero => rfl
  | succ m ih => simp only [daysBeforeMonth, mbefore, ih, monthLen_eq]

/-- Month and day of every day of a year (a complete table of 366 + 365 days). -/
theorem monthDay_table : ∀ l : Bool, ∀ i : Fin 366, i.val < (if l then 366 else 365) →
    1 ≤ (monthDay l i.val).1 ∧ (monthDay l i.val).1 ≤ 12 ∧ 1 ≤ (monthDay l i.val).2 ∧
    (monthDay l i.val).2 ≤ mlen l (monthDay l i.val).1 ∧
    mbefore l (monthDay l i.val).1 + ((monthDay l i.val).2 - 1) = i.val := by
  decide +kernel

/-- Go's date of an instant is its Gregorian date. -/
theorem date_spec (ns : Int) (h : -719162 ≤ unixDay ns) :
    ∃ t : Date, date ns = ((t.y : Int), t.m, t.d) ∧ t.Valid ∧ 1 ≤ t.y ∧ (t.dayNo : Int) - epochDay = unixDay ns := by
  obtain ⟨D, hD⟩ : ∃ D : Nat, (D : Int) = unixDay ns + 719162 := ⟨(unixDay ns + 719162).toNat, by omega⟩
  have e : (unixDay ns + absOffset).toNat = D + 730692556 * 146097 := by unfold absOffset; omega
  obtain ⟨y, yday, hy, hy1, hs, hl⟩ := absYear_spec D
  have hy366 : yday < 366 := by unfold yearLen at hl; split at hl <;> omega
  obtain ⟨h1, h2, h3, h4, h5⟩ := monthDay_table (leap y) ⟨yday, hy366⟩ hl
  refine ⟨⟨y, (monthDay (leap y) yday).1, (monthDay (leap y) yday).2⟩, ?_, ?_, hy1, ?_⟩
  · simp only [date, e, hy, goIsLeap_natCast]
  · exact ⟨h1, h2, h3, by rw [monthLen_eq]; exact h4⟩
  · simp only [Date.dayNo, daysBeforeMonth_eq, epochDay]
    simp only at h5
    omega

theorem toInt64_range (x : Nat) (h : x < 2 ^ 64) : -2 ^ 63 ≤ toInt64 x ∧ toInt64 x < 2 ^ 63 := by
  unfold toInt64; split <;> omega

theorem unixDay_range {ns : Int} (h : -2 ^ 63 ≤ ns) (h' : ns < 2 ^ 63) :
    -106752 ≤ unixDay ns ∧ unixDay ns ≤ 106752 := by
  unfold unixDay unixSec; omega

theorem daysBeforeYear_mono {a b : Nat} (h : a ≤ b) : daysBeforeYear a ≤ daysBeforeYear b := by
  induction h with
  | refl => exact Nat.le_refl _
  | step _ ih => exact Nat.le_trans ih (by simp [daysBeforeYear])

theorem mbefore_table : ∀ l : Bool, ∀ m : Fin 13, 1 ≤ m.val →
    mbefore l m.val + mlen l m.val ≤ (if l then 366 else 365) := by decide +kernel

theorem dayNo_bounds {t : Date} (h : t.Valid) :
    daysBeforeYear t.y ≤ t.dayNo ∧ t.dayNo < daysBeforeYear (t.y + 1) := by
  obtain ⟨h1, h2, h3, h4⟩ := h
  have := mbefore_table (leap t.y) ⟨t.m, by omega⟩ h1
  simp only [Date.dayNo, daysBeforeMonth_eq, daysBeforeYear, yearLen]
  rw [monthLen_eq] at h4
  simp only at this
  omega

theorem mbefore_mono {l : Bool} {a b : Nat} (h : a ≤ b) : mbefore l a ≤ mbefore l b := by
  induction h with
  | refl => exact Nat.le_refl _
  | step _ ih => exact Nat.le_trans ih (by simp [mbefore])

/-- A valid date is determined by its day number. -/
theorem dayNo_inj {s t : Date} (hs : s.Valid) (ht : t.Valid) (h : s.dayNo = t.dayNo) : s = t := by
  have hy : s.y = t.y := by
    obtain ⟨a1, a2⟩ := dayNo_bounds hs
    obtain ⟨b1, b2⟩ := dayNo_bounds ht
    rcases Nat.lt_trichotomy s.y t.y with hlt | heq | hgt
    · have := daysBeforeYear_mono (show s.y + 1 ≤ t.y from hlt); omega
    · exact heq
    · have := daysBeforeYear_mono (show t.y + 1 ≤ s.y from hgt); omega
  obtain ⟨y, m, d⟩ := s
  obtain ⟨y', m', d'⟩ := t
  simp only at hy
  subst hy
  simp only [Date.dayNo, daysBeforeMonth_eq, Date.Valid, monthLen_eq] at *
  have key : ∀ {m m' d d' : Nat}, m < m' → 1 ≤ d → d ≤ mlen (leap y) m →
      mbefore (leap y) m + (d - 1) < mbefore (leap y) m' + (d' - 1) := by
    intro m m' d d' hlt h1 h2
    have := mbefore_mono (l := leap y) (show m + 1 ≤ m' from hlt)
    simp only [mbefore] at this
    omega
  have hm : m = m' := by
    rcases Nat.lt_trichotomy m m' with hlt | heq | hgt
    · have := key (d' := d') hlt hs.2.2.1 hs.2.2.2; omega
    · exact heq
    · have := key (d' := d) hgt ht.2.2.1 ht.2.2.2; omega
  subst hm
  have : d = d' := by omega
  subst this
  rfl

theorem hourOf_spec (ns : Int) :
    hourOf ns < 24 ∧ 3600000000000 * (24 * unixDay ns + hourOf ns) ≤ ns ∧
      ns < 3600000000000 * (24 * unixDay ns + hourOf ns + 1) := by
  unfold hourOf unixDay unixSec
  omega

/-- Every 64-bit instant has a Gregorian date, the one Go computes, with a year between 1677 and 2262. -/
theorem isTime_date {ns : Int} (h : -2 ^ 63 ≤ ns) (h' : ns < 2 ^ 63) :
    ∃ t : Date, date ns = ((t.y : Int), t.m, t.d) ∧ IsTime ns t (hourOf ns) ∧ 1677 ≤ t.y ∧ t.y ≤ 2262 := by
  obtain ⟨hr, hr'⟩ := unixDay_range h h'
  obtain ⟨t, hd, hv, -, hn⟩ := date_spec ns (by omega)
  obtain ⟨h1, h2, h3⟩ := hourOf_spec ns
  refine ⟨t, hd, ⟨hv, h1, by rw [hn]; exact h2, by rw [hn]; exact h3⟩, ?_, ?_⟩
  · obtain ⟨b1, b2⟩ := dayNo_bounds hv
    apply Decidable.byContradiction
    intro hc
    have := daysBeforeYear_mono (show t.y + 1 ≤ 1677 by omega)
    have c := daysBeforeYear_closed 1677
    simp only [epochDay] at hn
    omega
  · obtain ⟨b1, b2⟩ := dayNo_bounds hv
    apply Decidable.byContradiction
    intro hc
    have := daysBeforeYear_mono (show 2263 ≤ t.y by omega)
    have c := daysBeforeYear_closed 2263
    simp only [epochDay] at hn
    omega

/-- The calendar time of an instant is unique. -/
theorem isTime_unique {ns : Int} {s t : Date} {h k : Nat} (hs : IsTime ns s h) (ht : IsTime ns t k) : s = t ∧ h = k := by
  obtain ⟨v1, l1, a1, b1⟩ := hs
  obtain ⟨v2, l2, a2, b2⟩ := ht
  have e : s.dayNo = t.dayNo ∧ h = k := by omega
  exact ⟨dayNo_inj v1 v2 e.1, e.2⟩

theorem isTime_hour {ns : Int} {t : Date} {h : Nat} (ht : IsTime ns t h) :
    ns / 3600000000000 = 24 * ((t.dayNo : Int) - epochDay) + h := by
  obtain ⟨-, -, a, b⟩ := ht
  generalize (t.dayNo : Int) - epochDay = x at *
  omega

theorem isTime_day {ns : Int} {t : Date} {h : Nat} (ht : IsTime ns t h) :
    ns / 86400000000000 = (t.dayNo : Int) - epochDay := by
  obtain ⟨-, hl, a, b⟩ := ht
  generalize (t.dayNo : Int) - epochDay = x at *
  omega

theorem isTime_same_hour {a b : Int} {s t : Date} {h k : Nat} (hs : IsTime a s h) (ht : IsTime b t k)
    (he : a / 3600000000000 = b / 3600000000000) : s = t ∧ h = k := by
  rw [isTime_hour hs, isTime_hour ht] at he
  have h1 := hs.2.1
  have h2 := ht.2.1
  have e : s.dayNo = t.dayNo ∧ h = k := by
    generalize (epochDay : Int) = z at *
    omega
  exact ⟨dayNo_inj hs.1 ht.1 e.1, e.2⟩

theorem isTime_same_day {a b : Int} {s t : Date} {h k : Nat} (hs : IsTime a s h) (ht : IsTime b t k)
    (he : a / 86400000000000 = b / 86400000000000) : s = t := by
  rw [isTime_day hs, isTime_day ht] at he
  refine dayNo_inj hs.1 ht.1 ?_
  generalize (epochDay : Int) = z at *
  omega

theorem pad2_inj {a b : Nat} (ha : a < 100) (hb : b < 100) (h : pad2 a = pad2 b) : a = b := by
  simp only [pad2, List.cons.injEq, and_true] at h
  have h1 := digit_inj (by omega) (by omega) h.1
  have h2 := digit_inj (by omega) (by omega) h.2
  omega

theorem pad4_inj {a b : Nat} (ha : a < 10000) (hb : b < 10000) (h : pad4 a = pad4 b) : a = b := by
  simp only [pad4, List.cons.injEq, and_true] at h
  have h1 := digit_inj (by omega) (by omega) h.1
  have h2 := digit_inj (by omega) (by omega) h.2.1
  have h3 := digit_inj (by omega) (by omega) h.2.2.1
  have h4 := digit_inj (by omega) (by omega) h.2.2.2
  omega

theorem digit_ne_zero {d : Nat} (h : d < 10) : digit d ≠ 0 := by
  intro e
  have := digit_toNat h
  rw [e] at this
  simp at this
  omega

theorem isTime_small {ns : Int} {t : Date} {h : Nat} (hr : -2 ^ 63 ≤ ns ∧ ns < 2 ^ 63) (ht : IsTime ns t h) :
    t.y < 10000 ∧ h < 24 := by
  obtain ⟨t', -, ht', -, hy'⟩ := isTime_date hr.1 hr.2
  obtain ⟨rfl, rfl⟩ := isTime_unique ht ht'
  exact ⟨by omega, ht.2.1⟩

theorem monthLen_le (y m : Nat) : monthLen y m ≤ 31 := by
  unfold monthLen; split <;> (try split) <;> omega

theorem small_md {t : Date} (h : t.Valid) : t.m < 100 ∧ t.d < 100 := by
  have := monthLen_le t.y t.m
  have := h.2.2.2
  have := h.2.1
  omega

theorem day_inj {s t : Date} (y1 : s.y < 10000) (y2 : t.y < 10000) (m1 : s.m < 100 ∧ s.d < 100) (m2 : t.m < 100 ∧ t.d < 100)
    (he : viewPrefix ++ pad4 s.y ++ pad2 s.m ++ pad2 s.d = viewPrefix ++ pad4 t.y ++ pad2 t.m ++ pad2 t.d) : s = t := by
  obtain ⟨he, e3⟩ := List.append_inj' he (by simp [pad2])
  obtain ⟨he, e2⟩ := List.append_inj' he (by simp [pad2])
  obtain ⟨-, e1⟩ := List.append_inj' he (by simp [pad4])
  have h1 := pad4_inj y1 y2 e1
  have h2 := pad2_inj m1.1 m2.1 e2
  have h3 := pad2_inj m1.2 m2.2 e3
  cases s; cases t; simp_all

theorem dayHour_inj {s t : Date} {h k : Nat} (y1 : s.y < 10000) (y2 : t.y < 10000) (m1 : s.m < 100 ∧ s.d < 100)
    (m2 : t.m < 100 ∧ t.d < 100) (hh : h < 100) (hk : k < 100)
    (he : viewPrefix ++ pad4 s.y ++ pad2 s.m ++ pad2 s.d ++ pad2 h = viewPrefix ++ pad4 t.y ++ pad2 t.m ++ pad2 t.d ++ pad2 k) :
    s = t ∧ h = k := by
  obtain ⟨he, e4⟩ := List.append_inj' he (by simp [pad2])
  exact ⟨day_inj y1 y2 m1 m2 he, pad2_inj hh hk e4⟩

/-- Views of any int64 time. -/
theorem views_spec {ns : Int} (hr : Int64 ns) :
    ∃ t h, IsTime ns t h ∧ viewsOf (ymdh ns) quantumYMDH = some (specViews t h) := by
  obtain ⟨t, hd, ht, hy1, hy2⟩ := isTime_date hr.1 hr.2
  refine ⟨t, hourOf ns, ht, ?_⟩
  have hnz : ∀ n, digit (n % 10) ≠ 0 := fun n => digit_ne_zero (by omega)
  simp [ymdh, hd, viewsOf, quantumYMDH, specViews, pad4, pad2, hnz]

theorem views_isView {ns : Int} (hr : Int64 ns) :
    ∃ vs, viewsOf (ymdh ns) quantumYMDH = some vs ∧ (∀ v, v ∈ vs ↔ IsView ns v) ∧ vs.length = 4 := by
  obtain ⟨t, h, ht, hv⟩ := views_spec hr
  refine ⟨_, hv, fun v => ⟨fun hv => ⟨t, h, ht, hv⟩, ?_⟩, rfl⟩
  rintro ⟨t', h', ht', hv'⟩
  obtain ⟨rfl, rfl⟩ := isTime_unique ht ht'
  exact hv'

end Verif.Tm
