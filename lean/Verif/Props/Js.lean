import Verif.Spec.Js
import Verif.Lemmas.Time
import Verif.Props.Visit
import Mathlib.Data.List.Induction
/-!
# C40, C41: scans of scripts
-/
namespace Verif.Js
open Tm Cal
open St (Filter Scan Result)

/-! ## Dates -/

theorem daysSinceEpoch_spec (z : Nat) : daysSinceEpoch ((z + 1 : Nat) : Int) + 366 = daysBeforeYear (z + 1) + 730692556 * 146097 := by
  have c := daysBeforeYear_closed (z + 1)
  obtain ⟨a, r, hr, rfl⟩ : ∃ a r, r < 400 ∧ z = 400 * a + r := ⟨z / 400, z % 400, by omega, by omega⟩
  have e : (((400 * a + r + 1 : Nat) : Int) + 292277022399).toNat = 400 * (a + 730692556) + r := by omega
  unfold daysSinceEpoch
  simp only [e]
  have h1 : (400 * (a + 730692556) + r) / 400 = a + 730692556 := by omega
  have h2 : 400 * (a + 730692556) + r - 400 * (a + 730692556) = r := by omega
  simp only [h1, h2]
  obtain ⟨b, r1, hb, hr1, rfl⟩ : ∃ b r1, b < 4 ∧ r1 < 100 ∧ r = 100 * b + r1 := ⟨r / 100, r % 100, by omega, by omega, by omega⟩
  have h3 : (100 * b + r1) / 100 = b := by omega
  have h4 : 100 * b + r1 - 100 * b = r1 := by omega
  simp only [h3, h4]
  omega

theorem monthStart_table : ∀ l : Bool, ∀ m : Fin 13, 1 ≤ m.val →
    daysBefore.getD (m.val - 1) 0 + (if l && decide (3 ≤ m.val) then 1 else 0) = mbefore l m.val := by decide +kernel

theorem goDate_days (y : Int) (m d : Nat) : goDate y m d =
    (((daysSinceEpoch y + (daysBefore.getD (m - 1) 0 + (if goIsLeap y && decide (3 ≤ m) then 1 else 0)) + (d - 1) : Nat) : Int) - absOffset) * 86400000000000 := by
  unfold goDate
  generalize daysSinceEpoch y = a
  generalize daysBefore.getD (m - 1) 0 = b
  generalize absOffset = o
  cases goIsLeap y && decide (3 ≤ m)
  · rfl
  · rfl

theorem goDate_spec {t : Date} (h : t.Valid) (hy : 1 ≤ t.y) : goDate t.y t.m t.d = midnight t := by
  obtain ⟨z, hz⟩ : ∃ z, t.y = z + 1 := ⟨t.y - 1, by omega⟩
  have h1 := daysSinceEpoch_spec z
  rw [← hz] at h1
  have h2 := monthStart_table (leap t.y) ⟨t.m, by have := h.2.1; omega⟩ h.1
  have hd := h.2.2.1
  rw [goDate_days, goIsLeap_natCast, show daysBefore.getD (t.m - 1) 0 + (if leap t.y && decide (3 ≤ t.m) then 1 else 0) = mbefore (leap t.y) t.m from h2]
  unfold midnight Date.dayNo
  rw [daysBeforeMonth_eq]
  have ho : absOffset = 719162 + 730692556 * 146097 := by decide +kernel
  have he : (epochDay : Int) = epochDay := rfl
  rw [ho]
  unfold epochDay
  generalize daysSinceEpoch t.y = a at *
  generalize daysBeforeYear t.y = b at *
  generalize mbefore (leap t.y) t.m = c at *
  omega

theorem valid_first {t : Date} (h : t.Valid) : ({ t with d := 1 } : Date).Valid := ⟨h.1, h.2.1, by simp, by
  have := h.2.2.2
  have := h.2.2.1
  show 1 ≤ monthLen t.y t.m
  omega⟩

theorem valid_year (y : Nat) : ({ y := y, m := 1, d := 1 } : Date).Valid := ⟨by simp, by simp, by simp, by show 1 ≤ 31; omega⟩

theorem midnight_bounds {ts : Int} {t : Date} {h : Nat} (ht : IsTime ts t h) : midnight t ≤ ts ∧ ts < midnight t + 86400000000000 := by
  obtain ⟨-, hl, a, b⟩ := ht
  unfold midnight
  generalize (t.dayNo : Int) - epochDay = x at *
  omega

/-! ## C40 -/

variable {parse : Bytes → Option Int} {z : Zone}

/-- From a reading of the clock to an instant that shows it. -/
theorem ofWall_spec (ok : z.Ok) {w : Int} (hw1 : -2 ^ 63 * 1000000000 ≤ w) (hw2 : w < (2 ^ 63 - 1) * 1000000000) : z.IsAt w (z.ofWall w) := by
  intro ⟨T, x, y, hc⟩ ⟨u, hu⟩
  obtain ⟨hl, hh, hp'⟩ := ok w
  obtain ⟨-, -, hp⟩ := hp' hw1 hw2
  clear hw1 hw2 hp'
  have hw := hc w (by omega) (by omega)
  obtain ⟨ul, uh, -⟩ := ok u
  unfold Zone.wall at *
  have hu' := hc u (by omega) (by omega)
  have h1 := hc (w - (z.period w).off) (by omega) (by omega)
  obtain ⟨vl, vh, -⟩ := ok (w - (z.period w).off)
  have h2 := hc (w - (z.period (w - (z.period w).off)).off) (by omega) (by omega)
  unfold Zone.ofWall
  simp only
  by_cases h0 : (z.period w).off = 0
  · rw [if_pos h0, h0]; omega
  · rw [if_neg h0]
    by_cases hin : w - (z.period w).off < (z.period w).begins ∨ (z.period w).ends ≤ w - (z.period w).off
    · rw [if_pos hin]
      generalize (z.period w).off = p at *
      generalize (z.period (w - p)).off = q at *
      generalize (z.period u).off = r at *
      split at hw <;> split at hu' <;> split at h1 <;> split at h2 <;> omega
    · have hq := hp (w - (z.period w).off) (by omega) (by omega)
      rw [if_neg hin, hq]; omega

theorem weekStart (w : Int) : ∃ k : Int, w / 86400000000000 * 86400000000000 - weekday (w / 86400000000000 * 86400000000000) * 86400000000000 = 86400000000000 * (3 + 7 * k) ∧
    86400000000000 * (3 + 7 * k) ≤ w ∧ w < 86400000000000 * (3 + 7 * k) + 7 * 86400000000000 := by
  unfold weekday unixDay unixSec
  refine ⟨(w / 86400000000000 + 4) / 7 - 1, ?_, ?_, ?_⟩ <;> omega


theorem last_fold {β γ : Type} (g : Scan → γ) (f : Call → Option β) (w : β → γ)
    (h : ∀ s ts c, g (call parse z s ts c) = match f c with | none => g s | some b => w b) (cs : List (Int × Call)) (s : Scan) :
    g (cs.foldl (fun s c => call parse z s c.1 c.2) s) = match lastOf f cs with | none => g s | some b => w b := by
  induction cs using List.reverseRecOn with
  | nil => rfl
  | append_singleton cs c ih =>
    rw [List.foldl_append, List.foldl_cons, List.foldl_nil, h]
    unfold lastOf at *
    rw [List.filterMap_append, List.getLast?_append]
    cases hc : f c.2 with
    | none => simp [hc, ih]
    | some b => simp [hc]

theorem window_of_call (ok : z.Ok) {s : Scan} {ts : Int} (hts : -2 ^ 63 ≤ z.wall ts ∧ z.wall ts < 2 ^ 63) (c : Call) :
    (setsWindow parse c = false → (call parse z s ts c).time.range = s.time.range) ∧
    (setsWindow parse c = true → ∃ a b, (call parse z s ts c).time.range = some (a, b) ∧ Window parse z ts c a b) := by
  obtain ⟨t, hd, ht, hy, -⟩ := isTime_date hts.1 hts.2
  have hv := ht.1
  have e1 : beginningOfDay z ts = z.ofWall (midnight t) := by
    unfold beginningOfDay; rw [hd]; exact congrArg _ (goDate_spec hv (by omega))
  obtain ⟨b1, b2⟩ := midnight_bounds ht
  have low : ∀ t' : Date, -2 ^ 63 * 1000000000 ≤ midnight t' := fun t' => by unfold midnight epochDay; omega
  have high : ∀ {w}, w ≤ z.wall ts → w < (2 ^ 63 - 1) * 1000000000 := fun h => by omega
  cases c <;> (first
    | (refine ⟨fun _ => rfl, fun h => (nomatch h)⟩)
    | (refine ⟨fun h => (nomatch h), fun _ => ⟨_, _, rfl, ?_⟩⟩)
    | skip)
  case resource r =>
    refine ⟨fun _ => ?_, fun h => (nomatch h)⟩
    simp only [call]; split
    · rfl
    · split
      · rfl
      · split <;> rfl
  case offset d =>
    refine ⟨fun _ => ?_, fun h => (nomatch h)⟩
    simp only [call]; split <;> rfl
  case timeRange => exact ⟨rfl, rfl⟩
  case today => exact ⟨rfl, t, _, ht, by rw [e1]; exact ofWall_spec ok (low _) (high b1)⟩
  case thisWeek =>
    refine ⟨rfl, t, _, ht, fun hc hs => ?_⟩
    have hm := ofWall_spec ok (low _) (high b1) hc hs
    have hq : z.wall ts / 86400000000000 * 86400000000000 = midnight t := by
      unfold midnight at *
      generalize (t.dayNo : Int) - epochDay = x at *
      omega
    obtain ⟨k, hk, h1, h2⟩ := weekStart (z.wall ts)
    refine ⟨k, h1, h2, ?_⟩
    unfold beginningOfWeek
    rw [e1, hm, ← hq, hk]
    exact ofWall_spec ok (by omega) (high h1)
  case thisMonth =>
    refine ⟨rfl, t, _, ht, ?_⟩
    unfold beginningOfMonth; rw [hd]
    show z.IsAt _ (z.ofWall (goDate ((t.y : Nat) : Int) t.m 1))
    rw [show goDate ((t.y : Nat) : Int) t.m 1 = midnight { t with d := 1 } from goDate_spec (valid_first hv) (by show 1 ≤ t.y; omega)]
    refine ofWall_spec ok (low _) (high (Int.le_trans ?_ b1))
    have := hv.2.2.1
    unfold midnight Date.dayNo
    simp only
    omega
  case thisYear =>
    refine ⟨rfl, t, _, ht, ?_⟩
    unfold beginningOfYear; rw [hd]
    show z.IsAt _ (z.ofWall (goDate ((t.y : Nat) : Int) 1 1))
    rw [show goDate ((t.y : Nat) : Int) 1 1 = midnight { y := t.y, m := 1, d := 1 } from goDate_spec (valid_year t.y) (by show 1 ≤ t.y; omega)]
    refine ofWall_spec ok (low _) (high (Int.le_trans ?_ b1))
    have := hv.2.2.1
    have h0 : daysBeforeMonth t.y 1 = 0 := rfl
    unfold midnight Date.dayNo
    simp only
    omega
  case ago d =>
    simp only [setsWindow, call]
    cases hp : parse d with
    | none => exact ⟨fun _ => rfl, fun h => (nomatch h)⟩
    | some x => exact ⟨fun h => (nomatch h), fun _ => ⟨_, _, rfl, rfl, x, hp, by unfold addNeg before; by_cases h : x = -2 ^ 63 <;> simp only [h, if_true, if_false] <;> omega⟩⟩

/-- **C40.** Whatever the chain of builder calls: signal, limit, offset, now and window are those of the last call that sets them
(with windows as the calendar has them), the direction is reversed if that was ever asked for, and the filters are those asked
for, in order. -/
theorem C40_builder (ok : z.Ok) (r : Bytes) (cs : List (Int × Call)) (hts : ∀ c ∈ cs, -2 ^ 63 ≤ z.wall c.1 ∧ z.wall c.1 < 2 ^ 63) :
    (build parse z r cs).scope = (lastOf signalOf ((0, .resource r) :: cs)).getD Res.unknown ∧
    (build parse z r cs).limit = ((lastOf limitOf cs).map toUint64).getD 0 ∧
    (build parse z r cs).time.offset = lastOf (offsetOf parse) cs ∧
    (build parse z r cs).time.now = lastOf nowOf cs ∧
    (build parse z r cs).reverse = decide (∃ c ∈ cs, c.2 = .reverse) ∧
    (build parse z r cs).filters = cs.filterMap (fun c => filterOf c.2) ∧
    (match (cs.filter fun c => setsWindow parse c.2).getLast? with
      | none => (build parse z r cs).time.range = none
      | some c => ∃ a b, (build parse z r cs).time.range = some (a, b) ∧ Window parse z c.1 c.2 a b) := by
  have hres : ∀ s : Scan, ∀ ts x, call parse z s ts (.resource x) = { s with scope := (signalOf (.resource x)).getD s.scope } := by
    intro s ts x
    have e1 : ascii "metrics" = textMetrics := rfl
    have e2 : ascii "logs" = textLogs := rfl
    have e3 : ascii "traces" = textTraces := rfl
    simp only [call, signalOf, e1, e2, e3]
    by_cases h1 : x = textMetrics
    · rw [if_pos h1, if_pos h1]; rfl
    · rw [if_neg h1, if_neg h1]
      by_cases h2 : x = textLogs
      · rw [if_pos h2, if_pos h2]; rfl
      · rw [if_neg h2, if_neg h2]
        by_cases h3 : x = textTraces
        · rw [if_pos h3, if_pos h3]; rfl
        · rw [if_neg h3, if_neg h3]; rfl
  have hbuild : ∀ cs, build parse z r cs = ((0, .resource r) :: cs).foldl (fun s c => call parse z s c.1 c.2) { scope := Res.unknown } := fun cs => rfl
  have skip : ∀ {β : Type} (f : Call → Option β), f (.resource r) = none → lastOf f ((0, .resource r) :: cs) = lastOf f cs := by
    intro β f hf; unfold lastOf; rw [List.filterMap_cons_none (f := fun c : Int × Call => f c.2) hf]
  refine ⟨?_, ?_, ?_, ?_, ?_, ?_, ?_⟩
  · rw [hbuild, last_fold (fun s => s.scope) signalOf id]
    · cases lastOf signalOf ((0, .resource r) :: cs) <;> rfl
    · intro s ts c
      cases c <;> (first | rfl | skip)
      case resource x => rw [hres]; cases signalOf (.resource x) <;> rfl
      case offset d => simp only [call, signalOf]; split <;> rfl
      case ago d => simp only [call, signalOf]; split <;> rfl
  · rw [hbuild, last_fold (fun s => s.limit) limitOf toUint64, skip limitOf rfl]
    · cases lastOf limitOf cs <;> rfl
    · intro s ts c
      cases c <;> (first | rfl | skip)
      case resource x => rw [hres]; rfl
      case offset d => simp only [call, limitOf]; split <;> rfl
      case ago d => simp only [call, limitOf]; split <;> rfl
  · rw [hbuild, last_fold (fun s => s.time.offset) (offsetOf parse) some, skip _ rfl]
    · cases lastOf (offsetOf parse) cs <;> rfl
    · intro s ts c
      cases c <;> (first | rfl | skip)
      case resource x => rw [hres]; rfl
      case offset d => simp only [call, offsetOf]; cases parse d <;> rfl
      case ago d => simp only [call, offsetOf]; split <;> rfl
  · rw [hbuild, last_fold (fun s => s.time.now) nowOf some, skip _ rfl]
    · cases lastOf nowOf cs <;> rfl
    · intro s ts c
      cases c <;> (first | rfl | skip)
      case resource x => rw [hres]; rfl
      case offset d => simp only [call, nowOf]; split <;> rfl
      case ago d => simp only [call, nowOf]; split <;> rfl
  · have step : ∀ s ts c, (call parse z s ts c).reverse = (s.reverse || decide (c = .reverse)) := by
      intro s ts c
      cases c <;> (first | simp [call, base, attr, rangeTS]; done | skip)
      case resource x => rw [hres]; simp
      case offset d => simp only [call]; split <;> simp
      case ago d => simp only [call]; split <;> simp [rangeTS]
    have : ∀ (s : Scan), (cs.foldl (fun s c => call parse z s c.1 c.2) s).reverse = (s.reverse || decide (∃ c ∈ cs, c.2 = .reverse)) := by
      clear hts hbuild skip
      induction cs with
      | nil => intro s; simp
      | cons c cs ih =>
        intro s
        rw [List.foldl_cons, ih, step]
        by_cases hc : c.2 = .reverse <;> simp [hc, List.mem_cons, exists_eq_or_imp, -Prod.exists]
    unfold build
    rw [this, step]
    simp
  · have step : ∀ s ts c, (call parse z s ts c).filters = s.filters ++ (filterOf c).toList := by
      intro s ts c
      cases c <;> (first | simp [call, base, attr, rangeTS, filterOf]; done | skip)
      case resource x => rw [hres]; simp [filterOf]
      case offset d => simp only [call]; split <;> simp [filterOf]
      case ago d => simp only [call]; split <;> simp [rangeTS, filterOf]
    have : ∀ (s : Scan), (cs.foldl (fun s c => call parse z s c.1 c.2) s).filters = s.filters ++ cs.filterMap (fun c => filterOf c.2) := by
      clear hts hbuild skip
      induction cs with
      | nil => intro s; simp
      | cons c cs ih =>
        intro s
        rw [List.foldl_cons, ih, step, List.filterMap_cons]
        cases filterOf c.2 <;> simp
    unfold build
    rw [this, step]
    simp [filterOf]
  · have h0 : (call parse z { scope := Res.unknown } 0 (.resource r)).time.range = none := by rw [hres]
    unfold build
    generalize call parse z { scope := Res.unknown } 0 (.resource r) = s0 at h0
    clear hbuild skip hres
    induction cs using List.reverseRecOn with
    | nil => exact h0
    | append_singleton cs c ih =>
      have ih' := ih (fun c hc => hts c (List.mem_append_left _ hc))
      obtain ⟨w1, w2⟩ := window_of_call (parse := parse) ok (s := cs.foldl (fun s c => call parse z s c.1 c.2) s0)
        (hts c (by simp)) c.2
      rw [List.foldl_append, List.foldl_cons, List.foldl_nil, List.filter_append, List.getLast?_append]
      cases hc : setsWindow parse c.2 with
      | false =>
        rw [List.filter_cons_of_neg (by simp [hc])]
        simp only [List.filter_nil, List.getLast?_nil, Option.none_or]
        rw [w1 hc]
        exact ih'
      | true =>
        rw [List.filter_cons_of_pos (by simp [hc])]
        simp only [List.filter_nil, List.getLast?_singleton, Option.some_or]
        exact w2 hc

/-- A chain that sets everything, with two windows, of which the last counts. -/
example : build (fun _ => some 60000000000) Zone.utc textLogs [(1700000000000000000, .limit 5), (1700000000000000000, .thisMonth), (1700000000000000000, .logLevel [69]),
      (1700000000000000000, .ago [49, 109]), (1700000000000000000, .reverse), (1700000000000000000, .limit 7)] =
    { scope := Res.logs, filters := [.base Pfx.logsLevel [69]], time := { range := some (1699999940000000000, 1700000000000000000) }, limit := 7, reverse := true } := by
  unfold build; simp [call, textLogs, textMetrics, base, rangeTS, toUint64, addNeg]

/-! ### Zones -/

/-- A zone with one offset, for ever. -/
def Zone.fixed (off : Int) : Zone := { period := fun _ => { off := off, begins := -2 ^ 63 * 1000000000, ends := (2 ^ 63 - 1) * 1000000000 } }

theorem Zone.utc_eq : Zone.utc = Zone.fixed 0 := rfl

theorem wall_fixed (off t : Int) : (Zone.fixed off).wall t = t + off := rfl

theorem ofWall_fixed (off w : Int) : (Zone.fixed off).ofWall w = w - off := by
  unfold Zone.ofWall Zone.fixed
  simp only
  by_cases h : off = 0
  · rw [if_pos h]; omega
  · rw [if_neg h]; split <;> rfl

/-- **C40**, in a zone without clock changes (UTC: `off = 0`): "today", "this week", "this month" and "this year" start at the midnight the clocks of
that zone have shown, exactly. -/
theorem C40_fixed (off : Int) (ts : Int) (s : Scan) (hts : -2 ^ 63 ≤ ts + off ∧ ts + off < 2 ^ 63) :
    ∃ t h, IsTime (ts + off) t h ∧
      (call parse (Zone.fixed off) s ts .today).time.range = some (midnight t - off, ts) ∧
      (call parse (Zone.fixed off) s ts .thisMonth).time.range = some (midnight { t with d := 1 } - off, ts) ∧
      (call parse (Zone.fixed off) s ts .thisYear).time.range = some (midnight { y := t.y, m := 1, d := 1 } - off, ts) ∧
      ∃ k : Int, (call parse (Zone.fixed off) s ts .thisWeek).time.range = some (86400000000000 * (3 + 7 * k) - off, ts) ∧
        86400000000000 * (3 + 7 * k) ≤ ts + off ∧ ts + off < 86400000000000 * (3 + 7 * k) + 7 * 86400000000000 := by
  obtain ⟨t, hd, ht, hy, -⟩ := isTime_date hts.1 hts.2
  have hv := ht.1
  have e1 : beginningOfDay (Zone.fixed off) ts = midnight t - off := by
    unfold beginningOfDay; rw [ofWall_fixed, wall_fixed, hd]; exact congrArg (· - off) (goDate_spec hv (by omega))
  refine ⟨t, _, ht, ?_, ?_, ?_, ?_⟩
  · simp only [call, rangeTS, e1]
  · simp only [call, rangeTS, beginningOfMonth, ofWall_fixed, wall_fixed]; rw [hd]
    exact congrArg (fun x => some (x - off, ts)) (goDate_spec (valid_first hv) (by show 1 ≤ t.y; omega))
  · simp only [call, rangeTS, beginningOfYear, ofWall_fixed, wall_fixed]; rw [hd]
    exact congrArg (fun x => some (x - off, ts)) (goDate_spec (valid_year t.y) (by show 1 ≤ t.y; omega))
  · obtain ⟨b1, b2⟩ := midnight_bounds ht
    have hq : (ts + off) / 86400000000000 * 86400000000000 = midnight t := by
      unfold midnight at *
      generalize (t.dayNo : Int) - epochDay = x at *
      omega
    obtain ⟨k, hk, h1, h2⟩ := weekStart (ts + off)
    refine ⟨k, ?_, h1, h2⟩
    simp only [call, rangeTS, beginningOfWeek, ofWall_fixed, wall_fixed, e1]
    rw [show midnight t - off + off = midnight t from by omega, ← hq, hk]

/-- A zone whose clocks are changed once, at `T`. -/
def Zone.change (T before after : Int) : Zone :=
  { period := fun t => if t < T then { off := before, begins := -2 ^ 200, ends := T } else { off := after, begins := T, ends := 2 ^ 200 } }

theorem Zone.fixed_ok {off : Int} (h1 : -86400000000000 ≤ off) (h2 : off ≤ 86400000000000) : (Zone.fixed off).Ok :=
  fun _ => ⟨h1, h2, fun a b => ⟨a, b, fun _ _ _ => rfl⟩⟩

theorem Zone.change_ok {T before after : Int} (hT : -2 ^ 199 < T ∧ T < 2 ^ 199) (h1 : -86400000000000 ≤ before ∧ before ≤ 86400000000000)
    (h2 : -86400000000000 ≤ after ∧ after ≤ 86400000000000) : (Zone.change T before after).Ok := by
  intro t
  unfold Zone.change
  by_cases ht : t < T
  · simp only [if_pos ht]
    refine ⟨h1.1, h1.2, fun a b => ⟨?_, ht, fun u _ hu => by rw [if_pos hu]⟩⟩
    omega
  · simp only [if_neg ht]
    refine ⟨h2.1, h2.2, fun a b => ⟨by omega, ?_, fun u hu _ => by rw [if_neg (by omega)]⟩⟩
    omega

/-- The hypothesis of `C40_builder` on the zone, for UTC and for Berlin in 2024 (of two periods). -/
example : Zone.utc.Ok ∧ (Zone.change 1711846800000000000 3600000000000 7200000000000).Ok :=
  ⟨Zone.fixed_ok (by decide) (by decide), Zone.change_ok (by decide) (by decide) (by decide)⟩

/-- Berlin, 31 March 2024: at 16:00 summer time "today" starts at 00:00 winter time, 16 - 1 = 15 hours before. The hypotheses of
`C40_builder` hold around that moment. -/
example : (call (fun _ => none) (Zone.change 1711846800000000000 3600000000000 7200000000000) { scope := Res.logs } 1711893600000000000 .today).time.range =
    some (1711839600000000000, 1711893600000000000) := by decide +kernel

example : (Zone.change 1711846800000000000 3600000000000 7200000000000).Calm 1711843200000000000 ∧
    (Zone.change 1711846800000000000 3600000000000 7200000000000).Shows 1711843200000000000 := by
  refine ⟨⟨1711846800000000000, 3600000000000, 7200000000000, fun t _ _ => ?_⟩, 1711839600000000000, by decide +kernel⟩
  unfold Zone.change; simp only; split <;> rfl

/-- Beirut, 31 March 2024: clocks go from 00:00 to 01:00, so that day has no midnight, and "today" starts at 01:00. -/
example : let z := Zone.change 1711836000000000000 7200000000000 10800000000000
    z.wall (beginningOfDay z 1711893600000000000) = midnight { y := 2024, m := 3, d := 31 } + 3600000000000 := by decide +kernel

/-- São Paulo, Sunday 4 November 2018, 12:00: clocks went from 00:00 to 01:00. "Today" starts at 23:00 on Saturday, and "this week" at
23:00 on the Sunday before. -/
example : let z := Zone.change 1541300400000000000 (-10800000000000) (-7200000000000)
    z.wall (beginningOfDay z 1541340000000000000) = midnight { y := 2018, m := 11, d := 3 } + 82800000000000 ∧
    z.wall (beginningOfWeek z 1541340000000000000) = midnight { y := 2018, m := 10, d := 28 } + 82800000000000 := by decide +kernel

/-- 1 November 2023, 00:00 UTC, for a clock at 14 November 2023. -/
example : beginningOfMonth Zone.utc 1700000000000000000 = 1698796800000000000 := by decide +kernel

/-! ## C41 -/

section
variable {P : Vs.Hashes} {clock : Int} {a : Scan}

theorem setTimeRange_step (o : Vs.All) (x y : Nat) (f : Filter) :
    Vs.step P (Vs.setTimeRange o x y) f = Vs.setTimeRange (Vs.step P o f) x y := by
  cases f with
  | base p v =>
    simp only [Vs.step]
    repeat' (split; · rfl)
    rfl
  | attr p k v =>
    simp only [Vs.step]
    repeat' (split; · rfl)
    rfl
  | unset => rfl

/-- The order of setting the window and compiling the filters does not matter. -/
theorem compile_setTimeRange (fs : List Filter) (x y : Nat) : Vs.compile P fs (Vs.setTimeRange {} x y) = Vs.visitor P fs x y := by
  unfold Vs.visitor Vs.compile
  generalize ({} : Vs.All) = o
  induction fs generalizing o with
  | nil => rfl
  | cons f fs ih => rw [List.foldl_cons, setTimeRange_step, ih, List.foldl_cons]

theorem toUint64_of_nonneg {n : Nat} (h : n < 2 ^ 64) : toUint64 n = n := by unfold toUint64; omega

/-- The window of a scan, as `x.TimeBounds` has it (C21), is `start` … `stop`; both are times after 1970. -/
def WindowIs (clock : Int) (a : Scan) (start stop : Nat) : Prop :=
  timeBounds clock a.time = ((start : Int), (stop : Int)) ∧ start < 2 ^ 64 ∧ stop < 2 ^ 64

/-- **C41**, first part. A script scan without a time range and without filters is the result of the store, whatever it is. -/
theorem C41_untouched (fn : Scan → Result) (hr : a.time.range = none) (hf : a.filters = []) : jsScan P (some fn) clock a = fn a := by
  unfold jsScan
  simp only
  cases fn a with
  | data d => simp [hr, hf]
  | _ => rfl

/-- **C41**, errors of the store are passed on, and without a store there is an error. -/
theorem C41_errors (fn : Scan → Result) : jsScan P none clock a = .err ∧ (fn a = .err → jsScan P (some fn) clock a = .err) := by
  refine ⟨rfl, fun h => ?_⟩
  unfold jsScan; simp only [h]

theorem jsScan_asked {fn : Scan → Result} {d : Data} {start stop : Nat} (hw : WindowIs clock a start stop)
    (hask : ¬ (a.time.range = none ∧ a.filters = [])) (hd : fn a = .data (some d)) :
    jsScan P (some fn) clock a = match Vs.visit P (Vs.visitor P a.filters start stop) d with | none => .panic | some out => .data (some out) := by
  obtain ⟨h1, h2, h3⟩ := hw
  unfold jsScan
  simp only [hd, if_neg hask, h1, compile_setTimeRange, toUint64_of_nonneg h2, toUint64_of_nonneg h3]
  cases Vs.visit P (Vs.visitor P a.filters start stop) d <;> rfl

/-- **C41** (partial), second part. With a time range or filters, a script scan that answers with data has, out of the payload of
the store, exactly the records in the window that satisfy the filters the code enforces, in order and in their groups (`actual`
against `intended` filters: C39; hash collisions: `Faithful`). Missing: payloads with attributes without a value, and an empty
store (`C41_refuted`). -/
theorem C41_trimmed_partial {fn : Scan → Result} {d : Data} {start stop : Nat} (hw : WindowIs clock a start stop)
    (hask : ¬ (a.time.range = none ∧ a.filters = [])) (hd : fn a = .data (some d)) (hn : Vs.NoNil d) (hf : Vs.Faithful P a.filters d) :
    ∃ out, jsScan P (some fn) clock a = .data (some out) ∧ Vs.Trimmed (Vs.actual a.filters) start stop d out ∧
      (Vs.Supported a.filters d → Vs.Trimmed (Vs.intended a.filters) start stop d out) := by
  obtain ⟨out, ho⟩ := Option.isSome_iff_exists.1 (Vs.C50_no_panic_partial (P := P) (A := Vs.visitor P a.filters start stop) hn)
  refine ⟨out, ?_, Vs.C38_exact hf ho, fun hs => Vs.C38_intended_partial hs hf ho⟩
  rw [jsScan_asked hw hask hd, ho]

/-- The hypotheses of `C41_trimmed_partial` on a scan with filters and a window, and a payload with matching and other records. -/
example : ∃ (a : Scan) (d : Data), WindowIs 0 a 0 100 ∧ ¬ (a.time.range = none ∧ a.filters = []) ∧ Vs.NoNil d ∧ Vs.Faithful Vs.xx a.filters d ∧ Vs.Supported a.filters d :=
  ⟨{ scope := Res.logs, filters := Vs.demoFilters, time := { range := some (0, 100) } }, .logs Vs.demoLogs, ⟨rfl, by decide, by decide⟩, (nomatch ·.1),
    Vs.demo_faithful.2.2, Vs.demo_faithful.1, Vs.demo_faithful.2.1⟩

/-- **C41**, for scripts run by `rq query`, which reach the store over gRPC: the trimmed result as in `C41_trimmed_partial`; if the
store has a nil result (unknown scope, failing reads: C30), or none because it failed or crashed, the script gets an empty
message or an error. Filtering cannot crash the script unless an attribute has no value (C50). -/
theorem C41_query (fn : Scan → Result) :
    ((fn a = .err ∨ fn a = .panic) → queryScan P fn clock a = .err) ∧
    (fn a = .data none → queryScan P fn clock a = .data (some .none)) ∧
    (∀ d, fn a = .data (some d) → queryScan P fn clock a = jsScan P (some fn) clock a) ∧
    ((∀ d, fn a = .data (some d) → Vs.NoNil d) → queryScan P fn clock a ≠ .panic) := by
  have h1 : (fn a = .err ∨ fn a = .panic) → queryScan P fn clock a = .err := by
    rintro (h | h) <;> (unfold queryScan jsScan; simp only [h, rpc])
  have h2 : fn a = .data none → queryScan P fn clock a = .data (some .none) := by
    intro h
    unfold queryScan jsScan
    simp only [h, rpc, Option.getD_none]
    split
    · rfl
    · simp only [Vs.visit]
  have h3 : ∀ d, fn a = .data (some d) → queryScan P fn clock a = jsScan P (some fn) clock a := by
    intro d h
    unfold queryScan jsScan
    simp only [h, rpc, Option.getD_some]
  refine ⟨h1, h2, h3, fun hn => ?_⟩
  cases hf : fn a with
  | err => rw [h1 (.inl hf)]; simp
  | panic => rw [h1 (.inr hf)]; simp
  | undefined => unfold queryScan jsScan; simp [hf, rpc]
  | data d =>
    cases d with
    | none => rw [h2 hf]; simp
    | some d =>
      rw [h3 d hf]
      unfold jsScan
      simp only [hf]
      split
      · simp
      · obtain ⟨out, ho⟩ := Option.isSome_iff_exists.1 (Vs.C50_no_panic_partial (P := P)
          (A := Vs.compile P a.filters (Vs.setTimeRange {} (toUint64 (timeBounds clock a.time).1) (toUint64 (timeBounds clock a.time).2))) (hn d hf))
        rw [ho]; simp

/-- **C41** is false in general: if the scan function a `JS` is given returns a nil payload, a scan with a time range or filters
crashes instead of returning nothing (not over gRPC: `C41_query`); a window that starts before 1970 (which is what `timeRange`,
`ago` and `offset` can ask for) loses every record, although the store finds them. -/
theorem C41_refuted :
    (∀ P clock, ∃ a : Scan, a.time.range = none ∧ a.filters ≠ [] ∧ jsScan P (some fun _ => .data none) clock a = .panic) ∧
    (∀ P clock, ∃ a : Scan, a.filters = [] ∧ a.time.range ≠ none ∧ jsScan P (some fun _ => .data none) clock a = .panic) ∧
    (∀ (P : Vs.Hashes) (clock : Int) (d : Data), (∀ e ∈ Vs.entries d, e.record.time < 2 ^ 63) → ∃ a : Scan, a.time.range = some (-1, 2 ^ 63 - 1) ∧ a.filters = [] ∧
      ∃ out, jsScan P (some fun _ => .data (some d)) clock a = .data (some out) ∧ Vs.entries out = []) := by
  refine ⟨fun P clock => ⟨{ scope := Res.logs, filters := [.base Pfx.logsLevel [101]] }, rfl, by simp, ?_⟩,
    fun P clock => ⟨{ scope := Res.logs, time := { range := some (0, 1) } }, rfl, by simp, ?_⟩,
    fun P clock d hd => ⟨{ scope := Res.logs, time := { range := some (-1, 2 ^ 63 - 1) } }, rfl, rfl, ?_⟩⟩
  · unfold jsScan; simp
  · unfold jsScan; simp
  · obtain ⟨out, h1, h2⟩ := Vs.C38_no_filters (P := P) (start := toUint64 (-1)) (stop := toUint64 (2 ^ 63 - 1)) (d := d)
    refine ⟨out, ?_, ?_⟩
    · unfold jsScan
      simp only [reduceCtorEq, false_and, if_false, timeBounds, compile_setTimeRange, h1]
    · rw [List.filter_eq_nil_iff.2, List.map_nil, List.map_eq_nil_iff] at h2
      · exact h2
      · intro e he
        have h := hd e he
        rw [show toUint64 (-1) = 2 ^ 64 - 1 by decide +kernel, decide_eq_true_eq]
        omega
end

end Verif.Js
