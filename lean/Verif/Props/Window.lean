import Verif.Lemmas.Walk
import Verif.Props.ScanExact
/-!
# C72: which samples the time window of a scan takes in
-/
namespace Verif.Qm
open Tm Js Cal St
open Bt (shardWidth)

/-! ## Names of periods -/

theorem same_iff {x s : Int} (hx : Late x) (hs : Late s) (u : TUnit) : SamePeriod u x s ↔
    match u with
    | .Y => (civil x).y = (civil s).y
    | .M => (civil x).y = (civil s).y ∧ (civil x).m = (civil s).m
    | .D => civil x = civil s
    | .H => civil x = civil s ∧ hourOf x = hourOf s := by
  constructor
  · rintro ⟨d, h, t, k, h1, h2, h3⟩
    obtain ⟨rfl, rfl⟩ := isTime_unique h1 (isTime_civil hx)
    obtain ⟨rfl, rfl⟩ := isTime_unique h2 (isTime_civil hs)
    exact h3
  · intro h
    exact ⟨_, _, _, _, isTime_civil hx, isTime_civil hs, h⟩

theorem name_length (u : TUnit) (t : Date) (h : Nat) : (unitName u t h).length = match u with | .Y => 8 | .M => 10 | .D => 12 | .H => 14 := by
  cases u <;> simp [unitName, viewPrefix, pad4, pad2]

theorem name_view {u : TUnit} {d t : Date} {h k : Nat} (hv : unitName u d h ∈ specViews t k) : unitName u d h = unitName u t k := by
  have hl := name_length u d h
  have key : ∀ w, unitName u d h = unitName w t k → unitName u d h = unitName u t k := by
    intro w e
    have h1 := name_length w t k
    rw [← e, hl] at h1
    cases u <;> cases w <;> first | exact e | (simp at h1)
  simp only [specViews, List.mem_cons, List.not_mem_nil, or_false] at hv
  rcases hv with e | e | e | e
  · exact key .Y e
  · exact key .M e
  · exact key .D e
  · exact key .H e

theorem view_name (u : TUnit) (t : Date) (k : Nat) : unitName u t k ∈ specViews t k := by
  cases u <;> simp [unitName, specViews]

/-- The name of the period of `x` is a view of the time `s` exactly if `s` lies in the same period. -/
theorem isView_iff {x s : Int} (hx : Late x) (hs : Late s) (yx : (civil x).y < 10000) (ys : (civil s).y < 10000) (u : TUnit) :
    IsView s (viewByTimeUnit u x) ↔ SamePeriod u x s := by
  rw [name_eq hx, same_iff hx hs]
  obtain ⟨-, vx, -, -⟩ := civil_spec hx
  obtain ⟨-, vs, -, -⟩ := civil_spec hs
  have bx : (civil x).m < 100 ∧ (civil x).d < 100 := by
    have := vx.2.1; have := vx.2.2.2; have := monthLen_le (civil x).y (civil x).m; omega
  have bs : (civil s).m < 100 ∧ (civil s).d < 100 := by
    have := vs.2.1; have := vs.2.2.2; have := monthLen_le (civil s).y (civil s).m; omega
  have hh := (hourOf_spec x).1
  have hk := (hourOf_spec s).1
  constructor
  · rintro ⟨t, k, ht, hv⟩
    obtain ⟨rfl, rfl⟩ := isTime_unique ht (isTime_civil hs)
    have e := name_view hv
    cases u <;> simp only [unitName] at e ⊢
    · exact pad4_inj yx ys (List.append_inj' e (by simp [pad4])).2
    · obtain ⟨e1, e2⟩ := List.append_inj' e (by simp [pad2])
      exact ⟨pad4_inj yx ys (List.append_inj' e1 (by simp [pad4])).2, pad2_inj bx.1 bs.1 e2⟩
    · exact day_inj yx ys bx bs e
    · exact dayHour_inj yx ys bx bs (by omega) (by omega) e
  · intro h
    refine ⟨civil s, hourOf s, isTime_civil hs, ?_⟩
    have e : unitName u (civil x) (hourOf x) = unitName u (civil s) (hourOf s) := by
      cases u <;> simp only [unitName] at h ⊢
      · rw [h]
      · rw [h.1, h.2]
      · rw [h]
      · rw [h.1, h.2]
    rw [e]; exact view_name u _ _

theorem year_lt {t : Int} (h : Int64 t) : (civil t).y < 10000 := by
  obtain ⟨d, hd, ht, -, hy⟩ := isTime_date h.1 h.2
  have e : civil t = d := (isTime_unique (isTime_civil (late_int64 h)) ht).1
  rw [e]; omega

theorem sameH {x s : Int} (hx : Late x) (hs : Late s) : SamePeriod .H x s ↔ x / 3600000000000 = s / 3600000000000 := by
  rw [same_iff hx hs]
  simp only
  constructor
  · rintro ⟨h1, h2⟩
    rw [isTime_hour (isTime_civil hx), isTime_hour (isTime_civil hs), h1, h2]
  · exact isTime_same_hour (isTime_civil hx) (isTime_civil hs)

theorem sameD {x s : Int} (hx : Late x) (hs : Late s) : SamePeriod .D x s ↔ x / 86400000000000 = s / 86400000000000 := by
  rw [same_iff hx hs]
  simp only
  constructor
  · intro h
    rw [isTime_day (isTime_civil hx), isTime_day (isTime_civil hs), h]
  · exact isTime_same_day (isTime_civil hx) (isTime_civil hs)

theorem sameM {x s : Int} (hx : Late x) (hs : Late s) : SamePeriod .M x s ↔ mi x = mi s := by
  rw [same_iff hx hs]
  simp only
  have a1 := (civil_spec hx).2.1.1
  have a2 := (civil_spec hx).2.1.2.1
  have a3 := (civil_spec hs).2.1.1
  have a4 := (civil_spec hs).2.1.2.1
  unfold mi
  omega

theorem selM {a b s : Int} (ha : Late a) (hb : Late b) (hs : Late s) : Selected .M a b s ↔ mi a ≤ mi s ∧ mi s < mi b := by
  constructor
  · rintro ⟨p, h, q, k, r, l, h1, h2, h3, h4, h5⟩
    obtain ⟨rfl, rfl⟩ := isTime_unique h1 (isTime_civil ha)
    obtain ⟨rfl, rfl⟩ := isTime_unique h2 (isTime_civil hb)
    obtain ⟨rfl, rfl⟩ := isTime_unique h3 (isTime_civil hs)
    exact ⟨h4, h5⟩
  · rintro ⟨h4, h5⟩
    exact ⟨_, _, _, _, _, _, isTime_civil ha, isTime_civil hb, isTime_civil hs, h4, h5⟩

theorem selY {a b s : Int} (ha : Late a) (hb : Late b) (hs : Late s) : Selected .Y a b s ↔ (civil a).y ≤ (civil s).y ∧ (civil s).y < (civil b).y := by
  constructor
  · rintro ⟨p, h, q, k, r, l, h1, h2, h3, h4, h5⟩
    obtain ⟨rfl, rfl⟩ := isTime_unique h1 (isTime_civil ha)
    obtain ⟨rfl, rfl⟩ := isTime_unique h2 (isTime_civil hb)
    obtain ⟨rfl, rfl⟩ := isTime_unique h3 (isTime_civil hs)
    exact ⟨h4, h5⟩
  · rintro ⟨h4, h5⟩
    exact ⟨_, _, _, _, _, _, isTime_civil ha, isTime_civil hb, isTime_civil hs, h4, h5⟩

theorem short_iff {a b : Int} (ha : Late a) (hb : Late b) : ShortMonths a b ↔ Short a b := by
  constructor
  · rintro ⟨p, h, q, k, h1, h2, h3, h4⟩
    obtain ⟨rfl, rfl⟩ := isTime_unique h1 (isTime_civil ha)
    obtain ⟨rfl, rfl⟩ := isTime_unique h2 (isTime_civil hb)
    exact ⟨h3, h4⟩
  · rintro ⟨h3, h4⟩
    exact ⟨_, _, _, _, isTime_civil ha, isTime_civil hb, h3, h4⟩

/-! ## What the views of a window take in -/

/-- The times filed under a view of the window are those of `Selected`; for a range of months that begins after the 28th and ends in
the next month there may be fewer. -/
theorem views_selected {a b s : Int} (ha : Int64 a) (hb : Int64 b) (hs : Int64 s) (u : TUnit) :
    ((∃ v ∈ viewsByTimeRange a b u, IsView s v) → Selected u a b s) ∧
    ((u = .M → ¬ ShortMonths a b) → Selected u a b s → ∃ v ∈ viewsByTimeRange a b u, IsView s v) := by
  have la := late_int64 ha
  have lb := late_int64 hb
  have ls := late_int64 hs
  have ys := year_lt hs
  have yb := year_lt hb
  cases u with
  | H =>
    constructor
    · rintro ⟨v, hv, hi⟩
      obtain ⟨k, hk, rfl⟩ := views_H.1 hv
      have hx : Int64 (a + k * hour) := ⟨by have := ha.1; unfold hour; omega, by have := hb.2; omega⟩
      exact ⟨k, hk, (sameH (late_int64 hx) ls).1 ((isView_iff (late_int64 hx) ls (year_lt hx) ys .H).1 hi)⟩
    · rintro - ⟨k, hk, he⟩
      have hx : Int64 (a + k * hour) := ⟨by have := ha.1; unfold hour; omega, by have := hb.2; unfold hour at *; omega⟩
      exact ⟨_, views_H.2 ⟨k, hk, rfl⟩, (isView_iff (late_int64 hx) ls (year_lt hx) ys .H).2 ((sameH (late_int64 hx) ls).2 he)⟩
  | D =>
    constructor
    · rintro ⟨v, hv, hi⟩
      obtain ⟨x, lx, h1, h2, rfl⟩ := (views_D la lb v).1 hv
      have yx : (civil x).y < 10000 := by
        have := yr_mono lx (show x ≤ b by unfold dayNs at h2; omega); omega
      have e := (sameD lx ls).1 ((isView_iff lx ls yx ys .D).1 hi)
      unfold dayNs at h1 h2
      exact ⟨by omega, by omega⟩
    · rintro - ⟨h1, h2⟩
      exact ⟨_, (views_D la lb _).2 ⟨s, ls, h1, h2, rfl⟩, (isView_iff ls ls ys ys .D).2 ((sameD ls ls).2 rfl)⟩
  | M =>
    rw [selM la lb ls]
    constructor
    · rintro ⟨v, hv, hi⟩
      obtain ⟨x, lx, h1, h2, rfl⟩ := (views_M_sub la lb v).1 hv
      have yx : (civil x).y < 10000 := by
        have := yr_mono lx (Int.le_of_lt (lt_of_mi lx lb h2)); omega
      have e := (sameM lx ls).1 ((isView_iff lx ls yx ys .M).1 hi)
      omega
    · rintro hn ⟨h1, h2⟩
      exact ⟨_, (views_M_sub la lb _).2 (fun h => hn rfl ((short_iff la lb).2 h)) ⟨s, ls, h1, h2, rfl⟩,
        (isView_iff ls ls ys ys .M).2 ((sameM ls ls).2 rfl)⟩
  | Y =>
    rw [selY la lb ls]
    constructor
    · rintro ⟨v, hv, hi⟩
      obtain ⟨x, lx, h1, h2, rfl⟩ := (views_Y la lb v).1 hv
      have yx : (civil x).y < 10000 := by omega
      have e := (same_iff lx ls .Y).1 ((isView_iff lx ls yx ys .Y).1 hi)
      simp only at e
      omega
    · rintro - ⟨h1, h2⟩
      exact ⟨_, (views_Y la lb _).2 ⟨s, ls, h1, h2, rfl⟩, (isView_iff ls ls ys ys .Y).2 ((same_iff ls ls .Y).2 rfl)⟩

/-! ## Scans -/

section scans
variable {σ : Type} {D : Dict σ} {st : σ} {L : List Landed} {opened : List Nat} {sc : Scan} {o : Offered}

/-- A sample that is found is filed under a view of the scan. -/
theorem finds_view {views : List Bytes} (h : Finds D st opened L views sc o) : ∃ v ∈ views, o.InView v := by
  obtain ⟨-, ⟨k, h1, o', h2⟩, h3⟩ := h
  exact (h3 k h1 ⟨o', h2⟩).2.1

/-- The sample was stored and has everything the scan asks for, and the shards of the labels asked for are open: the time decides
(compare `C29_found_iff`). -/
structure Findable (D : Dict σ) (st : σ) (opened : List Nat) (L : List Landed) (sc : Scan) (o : Offered) : Prop where
  fine : ∀ f ∈ L, f.Fine D st
  stored : ∃ f ∈ L, o ∈ f.samples
  ok : o.ok = true
  has : o.Matches sc
  isOpen : ∀ l ∈ sc.asked, ∀ n, D.look st l.encode = some n → n / shardWidth ∈ opened

theorem finds_iff (h : Findable D st opened L sc o) {views : List Bytes} : Finds D st opened L views sc o ↔ ∃ v ∈ views, o.InView v := by
  obtain ⟨f, hf, ho⟩ := h.stored
  exact ⟨finds_view, fun hw => (C29_found_iff h.fine f hf ho h.ok h.has hw).2 h.isOpen⟩

/-- **C72.** If the view function does what its name says, a scan with a range finds the samples whose period (hour, day, month, year,
by the length of the range) has a moment in the range. -/
theorem C72_contract (h : Findable D st opened L sc o) (E : Env) (hc : Covers E.vbr) (ho : Int64 o.time)
    {a b : Int} (hr : sc.time.range = some (a, b)) (ha : Int64 a) (hb : Int64 b) :
    Finds D st opened L (E.views sc) sc o ↔ ∃ x, a ≤ x ∧ x < b ∧ SamePeriod (chooseQuantum (timeSub b a)) x o.time := by
  have e : E.views sc = E.vbr a b (chooseQuantum (timeSub b a)) := by simp only [Env.views, C14_explicit_range _ _ _ _ hr]
  rw [finds_iff h, e]
  generalize chooseQuantum (timeSub b a) = u
  have ls := late_int64 ho
  constructor
  · rintro ⟨v, hv, hi⟩
    obtain ⟨x, h1, h2, t, k, ht, rfl⟩ := (hc a b u v ha hb).1 hv
    have hx : Int64 x := ⟨by have := ha.1; omega, by have := hb.2; omega⟩
    obtain ⟨rfl, rfl⟩ := isTime_unique ht (isTime_civil (late_int64 hx))
    refine ⟨x, h1, h2, (isView_iff (late_int64 hx) ls (year_lt hx) (year_lt ho) u).1 ?_⟩
    rw [name_eq (late_int64 hx)]; exact hi
  · rintro ⟨x, h1, h2, hs⟩
    have hx : Int64 x := ⟨by have := ha.1; omega, by have := hb.2; omega⟩
    refine ⟨viewByTimeUnit u x, (hc a b u _ ha hb).2 ⟨x, h1, h2, _, _, isTime_civil (late_int64 hx), name_eq (late_int64 hx) u⟩,
      (isView_iff (late_int64 hx) ls (year_lt hx) (year_lt ho) u).2 hs⟩

/-- **C72**, exact for the library: a scan with a range finds the samples of `Selected`, except that a range of months that begins
after the 28th and ends in the next month may find none of them. -/
theorem C72_range (h : Findable D st opened L sc o) (E : Env) (hE : E.vbr = viewsByTimeRange) (ho : Int64 o.time)
    {a b : Int} (hr : sc.time.range = some (a, b)) (ha : Int64 a) (hb : Int64 b) :
    (Finds D st opened L (E.views sc) sc o → Selected (chooseQuantum (timeSub b a)) a b o.time) ∧
    ((chooseQuantum (timeSub b a) = .M → ¬ ShortMonths a b) → Selected (chooseQuantum (timeSub b a)) a b o.time →
      Finds D st opened L (E.views sc) sc o) := by
  have e : E.views sc = viewsByTimeRange a b (chooseQuantum (timeSub b a)) := by
    simp only [Env.views, C14_explicit_range _ _ _ _ hr, hE]
  rw [finds_iff h, e]
  exact views_selected ha hb ho _

/-- **C72.** An instant scan finds the samples of one clock hour: that of the moment 15 minutes before the time asked for. -/
theorem C72_instant (h : Findable D st opened L sc o) (E : Env) (hE : E.vbr = viewsByTimeRange) (ho : Int64 o.time)
    (hr : sc.time.range = none) {now : Int} (hn : now = sc.time.now.getD E.clock - sc.time.offset.getD 0)
    (ha : Int64 (now - 900000000000)) (hb : Int64 now) :
    Finds D st opened L (E.views sc) sc o ↔ o.time / 3600000000000 = (now - 900000000000) / 3600000000000 := by
  have e : E.views sc = viewsByTimeRange (now - 900000000000) now .H := by
    rw [C14_scan_views E sc hr, hE, ← hn]; rfl
  rw [finds_iff h, e]
  have := views_selected ha hb ho .H
  constructor
  · intro hv
    obtain ⟨k, h1, h2⟩ := this.1 hv
    have : k = 0 := by omega
    subst this
    simp only [Int.natCast_zero] at h2
    omega
  · intro he
    refine this.2 (fun h => (nomatch h)) ⟨0, by omega, by omega⟩

/-- **C72.** Ranges of a day and more do not find samples of the day (month, year) in which they end. -/
theorem C72_last_period (h : Findable D st opened L sc o) (E : Env) (hE : E.vbr = viewsByTimeRange) (ho : Int64 o.time)
    {a b : Int} (hr : sc.time.range = some (a, b)) (ha : Int64 a) (hb : Int64 b) (hu : chooseQuantum (timeSub b a) ≠ .H)
    (hs : SamePeriod (chooseQuantum (timeSub b a)) o.time b) : ¬ Finds D st opened L (E.views sc) sc o := by
  intro hf
  have hsel := (C72_range h E hE ho hr ha hb).1 hf
  have la := late_int64 ha
  have lb := late_int64 hb
  have ls := late_int64 ho
  cases e : chooseQuantum (timeSub b a) with
  | H => exact hu e
  | D => rw [e] at hsel hs; have := (sameD ls lb).1 hs; have := hsel.2; omega
  | M => rw [e] at hsel hs; have := (sameM ls lb).1 hs; have := ((selM la lb ls).1 hsel).2; omega
  | Y => rw [e] at hsel hs; have := (same_iff ls lb .Y).1 hs; have := ((selY la lb ls).1 hsel).2; simp only at *; omega

/-- **C72.** A range shorter than a day misses a sample in it if and only if the range has no more than the whole hours from its start
to the hour of the sample. -/
theorem C72_hours (h : Findable D st opened L sc o) (E : Env) (hE : E.vbr = viewsByTimeRange) (ho : Int64 o.time)
    {a b : Int} (hr : sc.time.range = some (a, b)) (ha : Int64 a) (hb : Int64 b) (hu : chooseQuantum (timeSub b a) = .H)
    (h1 : a ≤ o.time) :
    Finds D st opened L (E.views sc) sc o ↔ (o.time / 3600000000000 - a / 3600000000000) * 3600000000000 < b - a := by
  have := C72_range h E hE ho hr ha hb
  rw [hu] at this
  have e : Finds D st opened L (E.views sc) sc o ↔ Selected .H a b o.time := ⟨this.1, this.2 (fun h => (nomatch h))⟩
  rw [e]
  constructor
  · rintro ⟨k, h3, h4⟩
    omega
  · intro h3
    exact ⟨(o.time / 3600000000000 - a / 3600000000000).toNat, by omega, by omega⟩

/-- **C72.** Samples before the range are found too, if they lie in the hour (day, month, year) in which it begins. -/
theorem C72_start (h : Findable D st opened L sc o) (E : Env) (hE : E.vbr = viewsByTimeRange) (ho : Int64 o.time)
    {a b : Int} (hr : sc.time.range = some (a, b)) (ha : Int64 a) (hb : Int64 b) (hab : a < b)
    (hu : chooseQuantum (timeSub b a) = .H ∨ ¬ SamePeriod (chooseQuantum (timeSub b a)) a b)
    (hm : chooseQuantum (timeSub b a) = .M → ¬ ShortMonths a b)
    (hs : SamePeriod (chooseQuantum (timeSub b a)) o.time a) : Finds D st opened L (E.views sc) sc o := by
  refine (C72_range h E hE ho hr ha hb).2 hm ?_
  have la := late_int64 ha
  have lb := late_int64 hb
  have ls := late_int64 ho
  cases e : chooseQuantum (timeSub b a) with
  | H => rw [e] at hs; have := (sameH ls la).1 hs; exact ⟨0, by omega, by omega⟩
  | D =>
    rw [e] at hs hu
    have h1 := (sameD ls la).1 hs
    have h2 : ¬ a / 86400000000000 = b / 86400000000000 := fun h => (hu.resolve_left (fun h => (nomatch h))) ((sameD la lb).2 h)
    exact ⟨by omega, by omega⟩
  | M =>
    rw [e] at hs hu
    have h1 := (sameM ls la).1 hs
    have h2 : ¬ mi a = mi b := fun h => (hu.resolve_left (fun h => (nomatch h))) ((sameM la lb).2 h)
    have := mi_mono la (Int.le_of_lt hab)
    exact (selM la lb ls).2 ⟨by omega, by omega⟩
  | Y =>
    rw [e] at hs hu
    have h1 := (same_iff ls la .Y).1 hs
    have h2 : ¬ (civil a).y = (civil b).y := fun h => (hu.resolve_left (fun h => (nomatch h))) ((same_iff la lb .Y).2 h)
    have := yr_mono la (Int.le_of_lt hab)
    simp only at h1
    exact (selY la lb ls).2 ⟨by omega, by omega⟩

/-- **C72**, for every history: the account of `C29_scan_exact`, with which the theorems above apply to every stored sample. -/
theorem C72_history (hD : D.Lawful) (hg : D.Good st) (ops : List (Op σ)) (hv : Valid D (fresh st) ops)
    (hi : Increasing (samplesOf D st ops)) :
    ∃ L : List Landed, L.map (·.samples) = flushesOf D st ops ∧
      (∀ (E : Env) (_ : E.Fair) (_ : E.NoFaults) (sc : Scan),
        scan D (run D st ops) E sc = answer D (run D st ops).ctx.st (run D st ops).idx.opened L E sc) ∧
      ∀ sc, ∀ o ∈ samplesOf D st ops, o.ok = true → o.Matches sc →
        (∀ l ∈ sc.asked, ∀ n, D.look (run D st ops).ctx.st l.encode = some n → n / shardWidth ∈ (run D st ops).idx.opened) →
        Findable D (run D st ops).ctx.st (run D st ops).idx.opened L sc o := by
  obtain ⟨L, h1, h2, h3⟩ := C29_scan_exact D st hD hg ops hv hi
  refine ⟨L, h1, h3, fun sc o ho hok hm hop => ⟨h2, ?_, hok, hm, hop⟩⟩
  have e : samplesOf D st ops = (flushesOf D st ops).flatten := (flushes_flatten D ops _ 0).symm
  rw [e, ← h1] at ho
  obtain ⟨l, hl, hol⟩ := List.mem_flatten.1 ho
  obtain ⟨f, hf, rfl⟩ := List.mem_map.1 hl
  exact ⟨f, hf, hol⟩

end scans

/-! ## Examples -/

/-- 2023-01-29 and 2023-02-28, 00:00 UTC. -/
def jan29 : Int := 1674950400000000000
def feb28 : Int := 1677542400000000000

/-- A range of 30 days that takes in nothing at all. -/
theorem C72_month_empty : chooseQuantum (timeSub feb28 jan29) = .M ∧ viewsByTimeRange jan29 feb28 .M = [] := by decide +kernel

/-- The same range by days begins with the day of its start and ends the day before its end. -/
example : (viewsByTimeRange jan29 feb28 .D).length = 30 := by decide +kernel

/-- **C72**: the library does not do what its name says. -/
theorem C72_covers_refuted : ¬ Covers viewsByTimeRange := by
  intro h
  have hj : Int64 jan29 := by unfold Int64 jan29; omega
  have hf : Int64 feb28 := by unfold Int64 feb28; omega
  have := (h jan29 feb28 .M _ hj hf).2 ⟨jan29, Int.le_refl _, by unfold jan29 feb28; omega, _, _, isTime_civil (late_int64 hj), rfl⟩
  rw [C72_month_empty.2] at this
  exact (nomatch this)

/-- Log records at 00:59:00 and 01:01:00. -/
def lateOps : List (Op (List Bytes)) := [.flush (logFlush [(0, 3540000000000, [97]), (1, 3660000000000, [98])] 10)]

theorem lateOps_valid : Valid listDict (fresh []) lateOps :=
  ⟨logFlush_fair _ (by decide), by decide +kernel, trivial⟩

theorem lateOps_increasing : Increasing (samplesOf listDict [] lateOps) := by
  unfold Increasing
  rw [← List.pairwise_map (f := fun o : Offered => o.sample.id) (R := (· < ·))]
  decide +kernel

/-- The library's views, no faults. -/
def libEnv (now : Int) : Env := { clock := now, vbr := viewsByTimeRange, P := Dt.toy }

/-- An instant scan at 01:05 returns the record of 00:59 and not that of 01:01. -/
theorem C72_instant_example : (found listDict (run listDict [] lateOps) (libEnv 3900000000000) { scope := Res.logs, filters := [.base Pfx.logsLevel [97]] } = [0]) ∧
    found listDict (run listDict [] lateOps) (libEnv 3900000000000) { scope := Res.logs, filters := [.base Pfx.logsLevel [98]] } = [] := by
  decide +kernel

/-- The theorems above apply to it: the sample of 01:01 is findable. -/
example : ∃ L o, o ∈ samplesOf listDict [] lateOps ∧ o.time = 3660000000000 ∧
    Findable listDict (run listDict [] lateOps).ctx.st (run listDict [] lateOps).idx.opened L { scope := Res.logs } o := by
  obtain ⟨L, -, -, h⟩ := C72_history listDict_lawful (by show 0 ≤ 2 ^ 64; decide) lateOps lateOps_valid lateOps_increasing
  have e : samplesOf listDict [] lateOps =
      tag true 0 [{ id := 0, data := logAt 3540000000000 [97] }, { id := 1, data := logAt 3660000000000 [98] }] := by
    have h1 : ((saveSamples listDict (Store.start [] (fun _ => none) []) (logFlush [(0, 3540000000000, [97]), (1, 3660000000000, [98])] 10)).2 == .ok) = true := by
      decide +kernel
    show tag _ _ _ ++ [] = _
    rw [h1, List.append_nil]; rfl
  have hm : (⟨Res.logs, { id := 1, data := logAt 3660000000000 [98] }, true⟩ : Offered) ∈ samplesOf listDict [] lateOps := by
    rw [e]; exact List.mem_cons_of_mem _ List.mem_cons_self
  refine ⟨L, _, hm, by decide +kernel, h _ _ hm rfl ⟨by decide, fun l hl => ⟨l, .inr ?_, rfl⟩⟩ ?_⟩
  · simpa [Scan.asked] using hl
  · intro l hl n hn
    have hl' : l = { resource := Res.logs } := by simpa [Scan.asked] using hl
    subst hl'
    have : ∀ n, listDict.look (run listDict [] lateOps).ctx.st (Label.encode { resource := Res.logs }) = some n → n = 2 := by
      have : listDict.look (run listDict [] lateOps).ctx.st (Label.encode { resource := Res.logs }) = some 2 := by decide +kernel
      intro n h; rw [this] at h; exact (Option.some.inj h).symm
    rw [this n hn]
    decide +kernel

/-- A view function that does cover its ranges. -/
def idealViews (a b : Int) (u : TUnit) : List Bytes :=
  if a < b then viewByTimeUnit u (b - 1) :: (List.range ((b - 1 - a) / hour + 1).toNat).map fun k => viewByTimeUnit u (a + (k : Nat) * hour) else []

theorem idealViews_covers : Covers idealViews := by
  intro a b u v ha hb
  have ok : ∀ x, a ≤ x → x < b → Int64 x := fun x h1 h2 => ⟨by have := ha.1; omega, by have := hb.2; omega⟩
  have good : ∀ x, a ≤ x → x < b → v = viewByTimeUnit u x → ∃ x, a ≤ x ∧ x < b ∧ PeriodName u x v := fun x h1 h2 e =>
    ⟨x, h1, h2, _, _, isTime_civil (late_int64 (ok x h1 h2)), by rw [e, name_eq (late_int64 (ok x h1 h2))]⟩
  have same : ∀ x y, a ≤ x → x < b → a ≤ y → y < b → x / 3600000000000 = y / 3600000000000 → viewByTimeUnit u x = viewByTimeUnit u y := by
    intro x y h1 h2 h3 h4 e
    have lx := late_int64 (ok x h1 h2)
    have ly := late_int64 (ok y h3 h4)
    obtain ⟨e1, e2⟩ := isTime_same_hour (isTime_civil lx) (isTime_civil ly) e
    rw [name_eq lx, name_eq ly, e1, e2]
  unfold idealViews
  by_cases hab : a < b
  · rw [if_pos hab, List.mem_cons, List.mem_map]
    constructor
    · rintro (h | ⟨k, hk, h⟩)
      · exact good _ (by omega) (by omega) h
      · rw [List.mem_range] at hk
        exact good _ (by unfold hour; omega) (by unfold hour at *; omega) h.symm
    · rintro ⟨x, h1, h2, t, k, ht, rfl⟩
      have lx := late_int64 (ok x h1 h2)
      obtain ⟨rfl, rfl⟩ := isTime_unique ht (isTime_civil lx)
      rw [← name_eq lx]
      by_cases hc : a + (x / 3600000000000 - a / 3600000000000) * 3600000000000 < b
      · right
        refine ⟨(x / 3600000000000 - a / 3600000000000).toNat, List.mem_range.2 (by unfold hour; omega), ?_⟩
        unfold hour
        exact same _ _ (by omega) (by omega) h1 h2 (by omega)
      · left
        exact same _ _ h1 h2 (by omega) (by omega) (by omega)
  · rw [if_neg hab]
    refine ⟨fun h => (nomatch h), ?_⟩
    rintro ⟨x, h1, h2, -⟩
    omega

end Verif.Qm
