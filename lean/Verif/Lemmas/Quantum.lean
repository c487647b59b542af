import Verif.Model.Quantum
import Verif.Spec.Window
import Verif.Props.Js
/-!
# The views of a time range
-/
namespace Verif.Qm
open Tm Js Cal

/-! ## Dates and their order -/

/-- The date Go computes. -/
def civil (t : Int) : Date := ⟨(date t).1.toNat, (date t).2.1, (date t).2.2⟩

/-- Times from year 1 on. -/
def Late (t : Int) : Prop := -719162 ≤ unixDay t

theorem unixDay_eq (t : Int) : unixDay t = t / dayNs := by unfold unixDay unixSec dayNs; omega

theorem civil_spec {t : Int} (h : Late t) : date t = (((civil t).y : Int), (civil t).m, (civil t).d) ∧ (civil t).Valid ∧ 1 ≤ (civil t).y ∧
    ((civil t).dayNo : Int) - epochDay = t / dayNs := by
  obtain ⟨d, hd, hv, hy, hn⟩ := date_spec t h
  have e : civil t = d := by unfold civil; rw [hd]; simp
  rw [e, hd]
  exact ⟨rfl, hv, hy, by rw [hn, unixDay_eq]⟩

theorem late_mono {s t : Int} (h : s ≤ t) (hs : Late s) : Late t := by
  unfold Late at *; rw [unixDay_eq] at *; unfold dayNs at *; omega

theorem late_int64 {t : Int} (h : Int64 t) : Late t := by
  have := (unixDay_range h.1 h.2).1; unfold Late; omega

theorem isTime_civil {t : Int} (h : Late t) : IsTime t (civil t) (hourOf t) := by
  obtain ⟨-, hv, -, hn⟩ := civil_spec h
  obtain ⟨h1, h2, h3⟩ := hourOf_spec t
  rw [← unixDay_eq] at hn
  exact ⟨hv, h1, by rw [hn]; exact h2, by rw [hn]; exact h3⟩

/-- Number of the month since year 0. -/
def mi (t : Int) : Nat := 12 * (civil t).y + (civil t).m

theorem month_mono {s t : Date} (hs : s.Valid) (ht : t.Valid) (h : s.dayNo ≤ t.dayNo) : 12 * s.y + s.m ≤ 12 * t.y + t.m := by
  obtain ⟨a1, a2⟩ := dayNo_bounds hs
  obtain ⟨b1, b2⟩ := dayNo_bounds ht
  apply Nat.le_of_not_lt
  intro hc
  by_cases hy : t.y < s.y
  · have := daysBeforeYear_mono (show t.y + 1 ≤ s.y from hy); omega
  · have hm1 := hs.2.1
    have hm2 := ht.2.1
    have hm3 := hs.1
    have hm4 := ht.1
    have e : s.y = t.y := by omega
    have hlt : t.m < s.m := by omega
    have := mbefore_mono (l := leap t.y) (show t.m + 1 ≤ s.m from hlt)
    simp only [mbefore] at this
    have hd := ht.2.2.2
    have hd1 := ht.2.2.1
    simp only [Date.dayNo, daysBeforeMonth_eq, monthLen_eq, e] at *
    omega

theorem year_mono {s t : Date} (hs : s.Valid) (ht : t.Valid) (h : s.dayNo ≤ t.dayNo) : s.y ≤ t.y := by
  have := month_mono hs ht h
  have hm1 := hs.2.1
  have hm2 := ht.2.1
  have hm3 := hs.1
  have hm4 := ht.1
  omega

theorem dayNo_mono {s t : Int} (hs : Late s) (h : s ≤ t) : (civil s).dayNo ≤ (civil t).dayNo := by
  obtain ⟨-, -, -, h1⟩ := civil_spec hs
  obtain ⟨-, -, -, h2⟩ := civil_spec (late_mono h hs)
  have : s / dayNs ≤ t / dayNs := by unfold dayNs; omega
  omega

theorem mi_mono {s t : Int} (hs : Late s) (h : s ≤ t) : mi s ≤ mi t :=
  month_mono (civil_spec hs).2.1 (civil_spec (late_mono h hs)).2.1 (dayNo_mono hs h)

theorem yr_mono {s t : Int} (hs : Late s) (h : s ≤ t) : (civil s).y ≤ (civil t).y :=
  year_mono (civil_spec hs).2.1 (civil_spec (late_mono h hs)).2.1 (dayNo_mono hs h)

theorem midnight_late {d : Date} (hv : d.Valid) (hy : 1 ≤ d.y) : -719162 ≤ (d.dayNo : Int) - epochDay := by
  have h1 := (dayNo_bounds hv).1
  have h2 := daysBeforeYear_mono hy
  have h3 : daysBeforeYear 1 = 366 := by decide
  unfold epochDay; omega

/-- The date of a moment of a given day. -/
theorem civil_at {d : Date} (hv : d.Valid) (hy : 1 ≤ d.y) {c : Int} (h0 : 0 ≤ c) (h1 : c < dayNs) :
    Late (midnight d + c) ∧ civil (midnight d + c) = d := by
  have hl := midnight_late hv hy
  have e : (midnight d + c) / dayNs = (d.dayNo : Int) - epochDay := by
    unfold midnight dayNs at *
    generalize (d.dayNo : Int) - epochDay = x at *
    omega
  have L : Late (midnight d + c) := by unfold Late; rw [unixDay_eq, e]; exact hl
  refine ⟨L, ?_⟩
  obtain ⟨-, v, -, n⟩ := civil_spec L
  exact dayNo_inj v hv (by omega)

theorem goDate_at {d : Date} (hv : d.Valid) (hy : 1 ≤ d.y) {c : Int} (h0 : 0 ≤ c) (h1 : c < dayNs) :
    Late (goDate d.y d.m d.d + c) ∧ civil (goDate d.y d.m d.d + c) = d := by
  rw [goDate_spec hv hy]; exact civil_at hv hy h0 h1

theorem goDate_linear (y : Int) (m d : Nat) (h : 1 ≤ d) : goDate y m d = goDate y m 1 + ((d : Int) - 1) * dayNs := by
  rw [goDate_days, goDate_days]
  unfold dayNs
  generalize daysSinceEpoch y = p
  generalize daysBefore.getD (m - 1) 0 + (if goIsLeap y && decide (3 ≤ m) then 1 else 0) = q
  generalize absOffset = o
  omega

theorem tod (t : Int) : 0 ≤ t % dayNs ∧ t % dayNs < dayNs := by unfold dayNs; omega

/-- The time of a moment from its date. -/
theorem split {t : Int} (h : Late t) : t = goDate (civil t).y (civil t).m (civil t).d + t % dayNs := by
  obtain ⟨-, hv, hy, hn⟩ := civil_spec h
  rw [goDate_spec hv hy]
  unfold midnight
  rw [hn]
  unfold dayNs; omega

theorem date_eq_civil {s t : Int} (hs : Late s) (ht : Late t) : date s = date t ↔ s / dayNs = t / dayNs := by
  obtain ⟨e1, v1, -, n1⟩ := civil_spec hs
  obtain ⟨e2, v2, -, n2⟩ := civil_spec ht
  constructor
  · intro h
    have : civil s = civil t := by unfold civil; rw [h]
    rw [← n1, ← n2, this]
  · intro h
    have : civil s = civil t := dayNo_inj v1 v2 (by omega)
    rw [e1, e2, this]

/-! ## Steps -/

theorem first_valid (y m : Nat) (h1 : 1 ≤ m) (h2 : m ≤ 12) : ({ y := y, m := m, d := 1 } : Date).Valid := by
  refine ⟨h1, h2, by simp, ?_⟩
  show 1 ≤ monthLen y m
  have : ∀ m : Fin 13, 1 ≤ m.val → 1 ≤ mlen (leap y) m.val := by cases leap y <;> decide
  exact this ⟨m, by omega⟩ h1

theorem le28_valid (y m d : Nat) (h1 : 1 ≤ m) (h2 : m ≤ 12) (h3 : 1 ≤ d) (h4 : d ≤ 28) : ({ y := y, m := m, d := d } : Date).Valid := by
  refine ⟨h1, h2, h3, ?_⟩
  show d ≤ monthLen y m
  have : ∀ m : Fin 13, 1 ≤ m.val → 28 ≤ mlen (leap y) m.val := by cases leap y <;> decide
  have := this ⟨m, by omega⟩ h1
  rw [monthLen_eq]; simp only at this; omega

/-- The first of the month after that of `t`. -/
def nextFirst (t : Int) : Date := if (civil t).m = 12 then ⟨(civil t).y + 1, 1, 1⟩ else ⟨(civil t).y, (civil t).m + 1, 1⟩

theorem nextFirst_spec {t : Int} (h : Late t) : (nextFirst t).Valid ∧ 1 ≤ (nextFirst t).y ∧ 12 * (nextFirst t).y + (nextFirst t).m = mi t + 1 ∧
    addMonth1 t = midnight (nextFirst t) + (((civil t).d : Int) - 1) * dayNs + t % dayNs := by
  obtain ⟨e, hv, hy, -⟩ := civil_spec h
  have hm1 := hv.1
  have hm2 := hv.2.1
  unfold addMonth1 nextFirst mi
  rw [e]
  simp only
  by_cases hm : (civil t).m = 12
  · rw [if_pos hm, if_pos hm]
    have V := first_valid ((civil t).y + 1) 1 (by omega) (by omega)
    refine ⟨V, by simp, by simp only; omega, ?_⟩
    rw [goDate_linear _ _ _ hv.2.2.1, ← goDate_spec V (by simp)]
    rfl
  · rw [if_neg hm, if_neg hm]
    have V := first_valid (civil t).y ((civil t).m + 1) (by omega) (by omega)
    refine ⟨V, hy, by simp only; omega, ?_⟩
    rw [goDate_linear _ _ _ hv.2.2.1, ← goDate_spec V hy]

theorem late_addMonth1 {t : Int} (h : Late t) : Late (addMonth1 t) ∧ mi t + 1 ≤ mi (addMonth1 t) ∧ t < addMonth1 t := by
  obtain ⟨v, y, m, e⟩ := nextFirst_spec h
  obtain ⟨-, hv, -, -⟩ := civil_spec h
  obtain ⟨l0, c0⟩ := civil_at v y (show (0 : Int) ≤ 0 by omega) (by unfold dayNs; omega)
  have hd := hv.2.2.1
  have ht := (tod t).1
  have hle : midnight (nextFirst t) + 0 ≤ addMonth1 t := by
    rw [e]
    have : (0 : Int) ≤ (((civil t).d : Int) - 1) * dayNs := Int.mul_nonneg (by omega) (by unfold dayNs; omega)
    omega
  have hmi : mi (midnight (nextFirst t) + 0) = mi t + 1 := by unfold mi at *; rw [c0]; exact m
  have L := late_mono hle l0
  have M := mi_mono l0 hle
  refine ⟨L, by omega, ?_⟩
  apply Int.lt_of_not_ge
  intro hc
  have := mi_mono L hc
  omega

theorem mi_addMonth1 {t : Int} (h : Late t) (h28 : (civil t).d ≤ 28) : mi (addMonth1 t) = mi t + 1 ∧ (civil (addMonth1 t)).d = (civil t).d := by
  obtain ⟨v, y, m, e⟩ := nextFirst_spec h
  obtain ⟨-, hv, -, -⟩ := civil_spec h
  have V := le28_valid (nextFirst t).y (nextFirst t).m (civil t).d v.1 v.2.1 hv.2.2.1 h28
  have e' : addMonth1 t = midnight ⟨(nextFirst t).y, (nextFirst t).m, (civil t).d⟩ + t % dayNs := by
    rw [e]
    have h1 : (nextFirst t).d = 1 := by unfold nextFirst; split <;> rfl
    have hd := hv.2.2.1
    unfold midnight Date.dayNo dayNs
    simp only [h1]
    generalize daysBeforeYear (nextFirst t).y + daysBeforeMonth (nextFirst t).y (nextFirst t).m = p
    omega
  obtain ⟨-, c⟩ := civil_at V y (tod t).1 (tod t).2
  rw [← e'] at c
  refine ⟨?_, by rw [c]⟩
  unfold mi at *; rw [c]; exact m

theorem hourOf_tod (t : Int) : 0 ≤ (hourOf t : Int) * hour ∧ (hourOf t : Int) * hour < dayNs ∧ (hourOf t : Int) * hour ≤ t % dayNs := by
  obtain ⟨h1, h2, h3⟩ := hourOf_spec t
  rw [unixDay_eq] at *
  unfold hour dayNs at *
  omega

theorem addMonth_spec {t : Int} (h : Late t) : mi (addMonth t) = mi t + 1 ∧ (civil (addMonth t)).d ≤ 28 ∧ t + hour ≤ addMonth t ∧ Late (addMonth t) := by
  obtain ⟨e, hv, hy, -⟩ := civil_spec h
  have hm1 := hv.1
  have hm2 := hv.2.1
  have key : ∀ s, Late s → (civil s).d ≤ 28 → mi s = mi t → (∀ r, Late r → mi r = mi t + 1 → (civil r).d = (civil s).d → r % dayNs = s % dayNs → t + hour ≤ r) →
      mi (addMonth1 s) = mi t + 1 ∧ (civil (addMonth1 s)).d ≤ 28 ∧ t + hour ≤ addMonth1 s ∧ Late (addMonth1 s) := by
    intro s hs h28 hm hr
    obtain ⟨a, b⟩ := mi_addMonth1 hs h28
    have L := (late_addMonth1 hs).1
    refine ⟨by omega, by omega, hr _ L (by omega) b ?_, L⟩
    obtain ⟨-, -, -, e⟩ := nextFirst_spec hs
    rw [e]
    unfold midnight dayNs
    generalize ((nextFirst s).dayNo : Int) - epochDay = x
    omega
  unfold addMonth
  have ed : (date t).2.2 = (civil t).d := rfl
  have em : (date t).2.1 = (civil t).m := rfl
  have ey : (date t).1 = (civil t).y := by rw [e]
  rw [ed, em, ey]
  obtain ⟨-, n⟩ := (⟨trivial, (civil_spec h).2.2.2⟩ : True ∧ _)
  have later : ∀ r, Late r → mi r = mi t + 1 → (civil t).dayNo + 1 ≤ (civil r).dayNo := by
    intro r hr hm
    apply Nat.lt_of_not_le
    intro hc
    have := month_mono (civil_spec hr).2.1 hv hc
    unfold mi at hm; omega
  split
  · have V := first_valid (civil t).y (civil t).m hm1 hm2
    obtain ⟨t1, t2, t3⟩ := hourOf_tod t
    obtain ⟨L, c⟩ := goDate_at V hy t1 t2
    refine key _ L (by rw [c]; simp) (by unfold mi; rw [c]) ?_
    intro r hr hm hd hmod
    have h1 := later r hr hm
    obtain ⟨-, -, -, n2⟩ := civil_spec hr
    have hs : (goDate ((civil t).y : Int) (civil t).m 1 + (hourOf t : Int) * hour) % dayNs = (hourOf t : Int) * hour := by
      rw [show goDate ((civil t).y : Int) (civil t).m 1 = midnight ⟨(civil t).y, (civil t).m, 1⟩ from goDate_spec V hy]
      unfold midnight dayNs at *
      generalize ((⟨(civil t).y, (civil t).m, 1⟩ : Date).dayNo : Int) - epochDay = x
      omega
    rw [hs] at hmod
    obtain ⟨g1, g2, g3⟩ := hourOf_spec t
    rw [unixDay_eq] at *
    unfold hour dayNs at *
    omega
  · refine key t h (by omega) rfl ?_
    intro r hr hm hd hmod
    have h1 := later r hr hm
    obtain ⟨-, -, -, n2⟩ := civil_spec hr
    unfold hour dayNs at *
    omega

theorem day_next (y : Int) (m d : Nat) (hd : 2 ≤ d) : goDate y m d = goDate y m (d - 1) + dayNs := by
  have h1 : 1 ≤ d := by omega
  have h2 : 1 ≤ d - 1 := by omega
  rw [goDate_linear _ _ d h1, goDate_linear _ _ (d - 1) h2]
  generalize goDate y m 1 = g
  unfold dayNs; omega

theorem len_tab : ∀ l l' : Bool, ∀ m : Fin 13, ∀ d : Fin 32, 1 ≤ m.val → d.val ≤ mlen l m.val → ¬ d.val ≤ mlen l' m.val → m.val = 2 ∧ d.val = 29 ∧ l' = false := by
  intro l l'; cases l <;> cases l' <;> decide +kernel

theorem feb29 {y y' m d : Nat} (hm : 1 ≤ m) (hm2 : m ≤ 12) (h : d ≤ monthLen y m) (hn : ¬ d ≤ monthLen y' m) : m = 2 ∧ d = 29 ∧ leap y' = false := by
  have h31 := monthLen_le y m
  rw [monthLen_eq] at h hn h31
  exact len_tab (leap y) (leap y') ⟨m, by omega⟩ ⟨d, by omega⟩ hm h hn

theorem mar4 (y m : Nat) (hl : leap y = false) (hb : mbefore false (m + 1) = mbefore false m + 28): (⟨y, m + 1, 1⟩ : Date).dayNo = (⟨y, m, 28⟩ : Date).dayNo + 1 := by
    unfold Date.dayNo
    simp only [daysBeforeMonth_eq, hl, hb]
    generalize daysBeforeYear y = p
    generalize mbefore false m = q
    omega


theorem mar5 (y m : Nat) (e : (⟨y, m + 1, 1⟩ : Date).dayNo = (⟨y, m, 28⟩ : Date).dayNo + 1) : midnight ⟨y, m, 28⟩ + dayNs = midnight ⟨y, m + 1, 1⟩ := by
  unfold midnight
  rw [e]
  generalize (⟨y, m, 28⟩ : Date).dayNo = p
  unfold dayNs
  omega

theorem goDate_mk {y m d : Nat} (V : (⟨y, m, d⟩ : Date).Valid) (hy : 1 ≤ y) : goDate (y : Int) m d = midnight ⟨y, m, d⟩ := by
  have := goDate_spec V hy
  exact this

theorem mar6 {y m d : Nat} (hm : m = 2) (hd : d = 28) (hy : 1 ≤ y) : goDate (y : Int) m d = midnight ⟨y, m, d⟩ := by
  have h1 : 1 ≤ m := by omega
  have h2 : m ≤ 12 := by omega
  have h3 : 1 ≤ d := by omega
  have h4 : d ≤ 28 := by omega
  clear hm hd
  exact goDate_mk (le28_valid y m d h1 h2 h3 h4) hy

theorem mar1 {y m d : Nat} (hm : m = 2) (hd : d = 29) (hl : leap y = false) (hy : 1 ≤ y) : goDate (y : Int) m d = midnight ⟨y, m + 1, 1⟩ := by
  have hd' : d - 1 = 28 := by omega
  have hb : mbefore false (m + 1) = mbefore false m + 28 := by subst hm; rfl
  have e29 := day_next y m d (by omega)
  have e28 := mar6 hm hd' hy
  have e := mar5 y m (mar4 y m hl hb)
  have e' : (⟨y, m, d - 1⟩ : Date) = ⟨y, m, 28⟩ := by rw [hd']
  exact e29.trans (by rw [e28, e', e])

theorem addYear_spec {t : Int} (h : Late t) : (civil (addYear t)).y = (civil t).y + 1 ∧ (civil t).m ≤ (civil (addYear t)).m ∧ t + hour ≤ addYear t ∧ Late (addYear t) := by
  obtain ⟨e, hv, hy, n⟩ := civil_spec h
  have hm1 := hv.1
  have hm2 := hv.2.1
  have ea : addYear t = goDate (((civil t).y + 1 : Nat) : Int) (civil t).m (civil t).d + t % dayNs := by
    unfold addYear; rw [e]; simp only [Int.natCast_add, Int.natCast_one]
  -- a date whose month is valid in the next year too, or 29 February
  have main : Late (addYear t) ∧ (civil (addYear t)).y = (civil t).y + 1 ∧ (civil t).m ≤ (civil (addYear t)).m := by
    by_cases hV : (⟨(civil t).y + 1, (civil t).m, (civil t).d⟩ : Date).Valid
    · obtain ⟨L, c⟩ := goDate_at hV (Nat.le_add_left 1 (civil t).y) (tod t).1 (tod t).2
      rw [ea]; exact ⟨L, by rw [c], by rw [c]⟩
    · have hlen := hv.2.2.2
      have hd1 := hv.2.2.1
      have h2 := feb29 hm1 hm2 hlen (fun hc => hV ⟨hm1, hm2, hd1, hc⟩)
      have V : (⟨(civil t).y + 1, 3, 1⟩ : Date).Valid := first_valid _ 3 (by omega) (by omega)
      have hg : addYear t = midnight ⟨(civil t).y + 1, 3, 1⟩ + t % dayNs := by
        rw [ea, mar1 h2.1 h2.2.1 h2.2.2 (Nat.le_add_left 1 (civil t).y), h2.1]
      obtain ⟨L, c⟩ := civil_at V (by simp) (tod t).1 (tod t).2
      rw [hg]; exact ⟨L, by rw [c], by rw [c, h2.1]; exact Nat.le_succ 2⟩
  obtain ⟨L, hy', hm'⟩ := main
  refine ⟨hy', hm', ?_, L⟩
  have h1 : (civil t).dayNo + 1 ≤ (civil (addYear t)).dayNo := by
    apply Nat.lt_of_not_le
    intro hc
    have := year_mono (civil_spec L).2.1 hv hc
    omega
  have hmod : addYear t % dayNs = t % dayNs := by
    rw [ea, goDate_days]; unfold dayNs
    generalize ((daysSinceEpoch (((civil t).y + 1 : Nat) : Int) + (daysBefore.getD ((civil t).m - 1) 0 + (if goIsLeap (((civil t).y + 1 : Nat) : Int) && decide (3 ≤ (civil t).m) then 1 else 0)) + ((civil t).d - 1) : Nat) : Int) - absOffset = x
    omega
  obtain ⟨-, -, -, n2⟩ := civil_spec L
  unfold hour dayNs at *
  omega

end Verif.Qm
