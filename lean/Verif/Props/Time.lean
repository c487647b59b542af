import Verif.Lemmas.Time
import Verif.Spec.Views
/-!
# C11–C14: views of timestamps, scan quantum and window
-/
namespace Verif
open Tm Cal

/-- **C11.** For every 64-bit sample timestamp, view construction succeeds and yields the year, month, day and hour of its
UTC calendar time (the int64 reading of the nanoseconds). -/
theorem C11_views_of_timestamp (ts : Nat) (hts : ts < 2 ^ 64) :
    ∃ t h, IsTime (toInt64 ts) t h ∧ sampleViews ts = some (specViews t h) :=
  views_spec (toInt64_range ts hts)

/-- **C11.** The four views are nested prefixes. -/
theorem C11_views_nested (ts : Nat) (hts : ts < 2 ^ 64) :
    ∃ y m d h, sampleViews ts = some [y, m, d, h] ∧ y <+: m ∧ m <+: d ∧ d <+: h ∧
      y ≠ m ∧ m ≠ d ∧ d ≠ h := by
  obtain ⟨t, h, -, hv⟩ := C11_views_of_timestamp ts hts
  refine ⟨_, _, _, _, hv, List.prefix_append _ _, List.prefix_append _ _, List.prefix_append _ _, ?_, ?_, ?_⟩ <;>
    simp [pad2, pad4]

/-- The instant 2024-02-29T23:00 UTC and its views. -/
example : sampleViews 1709247600000000000 = some (specViews ⟨2024, 2, 29⟩ 23) := by decide +kernel
/-- A timestamp above 2^63 is read as a negative int64: 1969-12-31T23:59:59.999999999. -/
example : sampleViews (2 ^ 64 - 1) = some (specViews ⟨1969, 12, 31⟩ 23) := by decide +kernel
/-- The epoch of the calendar specification is right. -/
example : (⟨1970, 1, 1⟩ : Date).dayNo = epochDay := by decide +kernel

/-- **C12.** Same hour view iff same UTC clock hour. -/
theorem C12_hour_view_iff (a b : Nat) (ha : a < 2 ^ 64) (hb : b < 2 ^ 64) (va vb : List Bytes)
    (hva : sampleViews a = some va) (hvb : sampleViews b = some vb) :
    va[3]? = vb[3]? ↔ toInt64 a / 3600000000000 = toInt64 b / 3600000000000 := by
  obtain ⟨s, h, hs, hsv⟩ := C11_views_of_timestamp a ha
  obtain ⟨t, k, ht, htv⟩ := C11_views_of_timestamp b hb
  rw [hsv] at hva; rw [htv] at hvb
  obtain ⟨y1, d1⟩ := isTime_small (toInt64_range a ha) hs
  obtain ⟨y2, d2⟩ := isTime_small (toInt64_range b hb) ht
  generalize toInt64 a = x at *
  generalize toInt64 b = y at *
  cases hva; cases hvb
  constructor
  · intro he
    obtain ⟨e1, e2⟩ := dayHour_inj y1 y2 (small_md hs.1) (small_md ht.1) (by have := hs.2.1; omega) (by have := ht.2.1; omega)
      (Option.some.inj he)
    rw [isTime_hour hs, isTime_hour ht, e1, e2]
  · intro he
    obtain ⟨e1, e2⟩ := isTime_same_hour hs ht he
    rw [e1, e2]

/-- **C12.** Same day view iff same UTC day. -/
theorem C12_day_view_iff (a b : Nat) (ha : a < 2 ^ 64) (hb : b < 2 ^ 64) (va vb : List Bytes)
    (hva : sampleViews a = some va) (hvb : sampleViews b = some vb) :
    va[2]? = vb[2]? ↔ toInt64 a / 86400000000000 = toInt64 b / 86400000000000 := by
  obtain ⟨s, h, hs, hsv⟩ := C11_views_of_timestamp a ha
  obtain ⟨t, k, ht, htv⟩ := C11_views_of_timestamp b hb
  rw [hsv] at hva; rw [htv] at hvb
  obtain ⟨y1, d1⟩ := isTime_small (toInt64_range a ha) hs
  obtain ⟨y2, d2⟩ := isTime_small (toInt64_range b hb) ht
  generalize toInt64 a = x at *
  generalize toInt64 b = y at *
  cases hva; cases hvb
  constructor
  · intro he
    have e1 := day_inj y1 y2 (small_md hs.1) (small_md ht.1) (Option.some.inj he)
    rw [isTime_day hs, isTime_day ht, e1]
  · intro he
    have e1 := isTime_same_day hs ht he
    subst e1
    simp [specViews]

/-- **C12.** Same month view iff same year and month of the calendar; same year view iff same calendar year. -/
theorem C12_month_year_view_iff (a b : Nat) (ha : a < 2 ^ 64) (hb : b < 2 ^ 64) (va vb : List Bytes)
    (hva : sampleViews a = some va) (hvb : sampleViews b = some vb) :
    ∃ s h t k, IsTime (toInt64 a) s h ∧ IsTime (toInt64 b) t k ∧
      (va[1]? = vb[1]? ↔ s.y = t.y ∧ s.m = t.m) ∧ (va[0]? = vb[0]? ↔ s.y = t.y) := by
  obtain ⟨s, h, hs, hsv⟩ := C11_views_of_timestamp a ha
  obtain ⟨t, k, ht, htv⟩ := C11_views_of_timestamp b hb
  rw [hsv] at hva; rw [htv] at hvb
  cases hva; cases hvb
  obtain ⟨a1, a2⟩ := toInt64_range a ha
  obtain ⟨b1, b2⟩ := toInt64_range b hb
  obtain ⟨s', -, hs', hsy, hsy'⟩ := isTime_date a1 a2
  obtain ⟨t', -, ht', hty, hty'⟩ := isTime_date b1 b2
  obtain ⟨rfl, rfl⟩ := isTime_unique hs hs'
  obtain ⟨rfl, rfl⟩ := isTime_unique ht ht'
  refine ⟨s, _, t, _, hs, ht, ?_, ?_⟩
  · simp only [specViews, List.getElem?_cons_succ, List.getElem?_cons_zero, Option.some.injEq]
    constructor
    · intro he
      obtain ⟨he, e2⟩ := List.append_inj' he rfl
      obtain ⟨-, e1⟩ := List.append_inj' he rfl
      have := hs.1.2.1
      have := ht.1.2.1
      exact ⟨pad4_inj (by omega) (by omega) e1, pad2_inj (by omega) (by omega) e2⟩
    · rintro ⟨e1, e2⟩; rw [e1, e2]
  · simp only [specViews, List.getElem?_cons_zero, Option.some.injEq]
    constructor
    · intro he
      obtain ⟨-, e1⟩ := List.append_inj' he rfl
      exact pad4_inj (by omega) (by omega) e1
    · intro e1; rw [e1]

/-- Hypotheses are met, and the relation is non-trivial: 2024-02-28T23:59 and 2024-02-29T00:00 share the month view only. -/
example : (do let a ← sampleViews 1709164740000000000; let b ← sampleViews 1709164800000000000
              pure (a.zip b |>.map fun p => decide (p.1 = p.2))) = some [true, true, false, false] := by decide +kernel

/-- Coarseness of a scan granularity. -/
def coarse : TUnit → Nat
  | .H => 0 | .D => 1 | .M => 2 | .Y => 3

/-- **C13.** The granularity is decided by the window length alone: hour below a day, day below 30 days, month below 360 days,
year otherwise. -/
theorem C13_quantum_by_length (d : Int) :
    (chooseQuantum d = .H ↔ d < 24 * 3600 * 1000000000) ∧
    (chooseQuantum d = .D ↔ 24 * 3600 * 1000000000 ≤ d ∧ d < 30 * 24 * 3600 * 1000000000) ∧
    (chooseQuantum d = .M ↔ 30 * 24 * 3600 * 1000000000 ≤ d ∧ d < 360 * 24 * 3600 * 1000000000) ∧
    (chooseQuantum d = .Y ↔ 360 * 24 * 3600 * 1000000000 ≤ d) := by
  unfold chooseQuantum year month day hour
  refine ⟨?_, ?_, ?_, ?_⟩ <;> (repeat' split) <;> simp <;> omega

/-- **C13.** Longer windows never use a finer granularity. -/
theorem C13_quantum_monotone (d e : Int) (h : d ≤ e) : coarse (chooseQuantum d) ≤ coarse (chooseQuantum e) := by
  unfold chooseQuantum year month day hour
  (repeat' split) <;> simp only [coarse] <;> omega

example : chooseQuantum (2 * day) = .D ∧ chooseQuantum (31 * day) = .M := by decide

/-- **C14.** An explicit time range is used as given, whatever now and offset are. -/
theorem C14_explicit_range (clock a b : Int) (s : ScanTime) (h : s.range = some (a, b)) :
    timeBounds clock s = (a, b) := by
  simp [timeBounds, h]

/-- **C14.** Otherwise the window is the 15 minutes that end at `now` (the request's, else the clock) minus the offset. -/
theorem C14_default_range (clock : Int) (s : ScanTime) (h : s.range = none) :
    (timeBounds clock s).2 = s.now.getD clock - s.offset.getD 0 ∧
    (timeBounds clock s).2 - (timeBounds clock s).1 = 15 * 60 * 1000000000 := by
  cases ho : s.offset <;> simp [timeBounds, h, ho, defaultRange] <;> omega

example : timeBounds 1000000000000000 { now := some 2000000000000000, offset := some 60000000000 } =
    (1999040000000000, 1999940000000000) := by decide

/-- The specification's calendar starts where Unix time does. -/
theorem epoch : (⟨1970, 1, 1⟩ : Cal.Date).dayNo = Cal.epochDay := by decide +kernel

end Verif
