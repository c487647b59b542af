import Verif.Props.Js
import Verif.Props.VisitExact
/-!
# C41, exactly
-/
namespace Verif.Js
open Tm
open St (Filter Scan Result)

variable {P : Vs.Hashes} {clock : Int} {a : Scan}

/-- **C41**, exactly, for a scan with a time range or filters: a nil payload crashes it; another payload crashes it exactly if
filtering gets to an attribute without a value (`Trips`, C50); otherwise the answer is exactly the part of the payload selected by
the filters that the code enforces (C39) and the window, whose bounds are read as unsigned numbers. Errors are passed on. -/
theorem C41_exact (fn : Scan → Result) (hask : ¬ (a.time.range = none ∧ a.filters = [])) :
    (fn a = .err → jsScan P (some fn) clock a = .err) ∧
    (fn a = .data none → jsScan P (some fn) clock a = .panic) ∧
    ∀ d, fn a = .data (some d) → Vs.Faithful P a.filters d →
      (jsScan P (some fn) clock a = .panic ↔ Vs.Data.Trips (Vs.actual a.filters) d) ∧
      (¬ Vs.Data.Trips (Vs.actual a.filters) d → ∃ out, jsScan P (some fn) clock a = .data (some out) ∧
        Vs.Trimmed (Vs.actual a.filters) (toUint64 (timeBounds clock a.time).1) (toUint64 (timeBounds clock a.time).2) d out) := by
  refine ⟨fun h => ?_, fun h => ?_, fun d h hf => ?_⟩
  · unfold jsScan; simp only [h]
  · unfold jsScan; simp only [h, if_neg hask]
  · have hp := Vs.C50_panic_iff (start := toUint64 (timeBounds clock a.time).1) (stop := toUint64 (timeBounds clock a.time).2) hf
    have he : jsScan P (some fn) clock a =
        match Vs.visit P (Vs.visitor P a.filters (toUint64 (timeBounds clock a.time).1) (toUint64 (timeBounds clock a.time).2)) d with
        | none => .panic
        | some out => .data (some out) := by
      unfold jsScan
      simp only [h, if_neg hask, compile_setTimeRange]
      cases Vs.visit P (Vs.visitor P a.filters _ _) d <;> rfl
    rw [he, ← hp]
    cases hv : Vs.visit P (Vs.visitor P a.filters (toUint64 (timeBounds clock a.time).1) (toUint64 (timeBounds clock a.time).2)) d with
    | none => simp
    | some out => exact ⟨by simp, fun _ => ⟨out, rfl, Vs.C38_exact hf hv⟩⟩

/-- A time before 1970, read as an unsigned number, is later than all times up to 2262. -/
theorem toUint64_neg {t : Int} (h : t < 0) (hl : -2 ^ 63 ≤ t) : 2 ^ 63 ≤ toUint64 t ∧ toUint64 t < 2 ^ 64 := by
  unfold toUint64; omega

/-- Every record of the answer is in the window. -/
theorem trimmed_window {W : Vs.Wanted} {start stop : Nat} {d out : Data} (h : Vs.Trimmed W start stop d out) :
    ∀ e ∈ Vs.entries out, start ≤ e.record.time ∧ e.record.time < stop := by
  classical
  intro e he
  have hm : e.bare ∈ (Vs.entries out).map Vs.Entry.bare := List.mem_map_of_mem he
  rw [Vs.trimmed_entries h] at hm
  obtain ⟨e', he', hb⟩ := List.mem_map.1 hm
  rw [List.mem_filter, decide_eq_true_eq] at he'
  have hr : e'.bare.record = e.bare.record := by rw [hb]
  obtain ⟨-, -, -, -, -, -, hok⟩ := he'.2
  rw [show e.record = e'.record from hr.symm]
  cases h' : e'.record with
  | log x => rw [h'] at hok; exact ⟨hok.2.1, hok.2.2.1⟩
  | span x => rw [h'] at hok; exact ⟨hok.2.1, hok.2.2.1⟩
  | point n k p => rw [h'] at hok; exact ⟨hok.2.1, hok.2.2.1⟩

/-- **C41**: a window that starts before 1970 selects none of the records with times up to 2262. -/
theorem C41_before_1970 (fn : Scan → Result) (hask : ¬ (a.time.range = none ∧ a.filters = [])) {d : Data} (hd : fn a = .data (some d))
    (hf : Vs.Faithful P a.filters d) (ht : ¬ Vs.Data.Trips (Vs.actual a.filters) d) (hneg : (timeBounds clock a.time).1 < 0)
    (hlow : -2 ^ 63 ≤ (timeBounds clock a.time).1) :
    ∃ out, jsScan P (some fn) clock a = .data (some out) ∧ ∀ e ∈ Vs.entries out, 2 ^ 63 ≤ e.record.time := by
  obtain ⟨-, -, h⟩ := C41_exact (P := P) (clock := clock) fn hask
  obtain ⟨out, ho, htr⟩ := (h d hd hf).2 ht
  refine ⟨out, ho, fun e he => ?_⟩
  have := toUint64_neg hneg hlow
  have := (trimmed_window htr e he).1
  omega

/-- The hypotheses are met: the demo payload and filters of C38, and a window that starts a second before 1970. -/
example : ∃ (a : Scan) (d : Data), ¬ (a.time.range = none ∧ a.filters = []) ∧ (timeBounds 0 a.time).1 < 0 ∧ -2 ^ 63 ≤ (timeBounds 0 a.time).1 ∧
    Vs.Faithful Vs.xx a.filters d ∧ ¬ Vs.Data.Trips (Vs.actual a.filters) d ∧ (Vs.entries d).length = 4 :=
  ⟨{ scope := Res.logs, filters := Vs.demoFilters, time := { range := some (-1000000000, 2000000000) } }, .logs Vs.demoLogs,
    (nomatch ·.1), by decide, by decide, Vs.demo_faithful.1, (by
      rw [← Vs.C50_panic_iff (P := Vs.xx) (start := 0) (stop := 0) Vs.demo_faithful.1]
      obtain ⟨out, ho⟩ := Option.isSome_iff_exists.1 (Vs.C50_no_panic_partial (P := Vs.xx) (A := Vs.visitor Vs.xx Vs.demoFilters 0 0) Vs.demo_faithful.2.2)
      rw [ho]; simp), by decide⟩

end Verif.Js
