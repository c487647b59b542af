import Verif.Props.Collapse
import Verif.Lemmas.Clash
import Verif.Spec.Otlp
/-!
# C35 exactly: when merging crashes
-/
namespace Verif.Dt
variable {α : Type}

theorem mapM_id_none {xs : List (Option α)} : xs.mapM id = none ↔ none ∈ xs := by
  induction xs with
  | nil => simp
  | cons x xs ih =>
    rw [List.mapM_cons]
    cases x with
    | none => simp
    | some x =>
      cases h : xs.mapM id with
      | none => simp [ih.1 h]
      | some ys =>
        have : none ∉ xs := fun hn => by rw [ih.2 hn] at h; cases h
        simp [this]

theorem mapM_id_some {xs : List (Option α)} {ys : List α} : xs.mapM id = some ys ↔ xs = ys.map some := by
  induction xs generalizing ys with
  | nil => cases ys <;> simp
  | cons x xs ih =>
    rw [List.mapM_cons]
    cases x with
    | none => cases ys <;> simp
    | some x =>
      cases h : xs.mapM id with
      | none =>
        cases ys with
        | nil => simp
        | cons y ys =>
          simp only [id_eq, Option.bind_eq_bind, Option.bind_some, Option.bind_none, reduceCtorEq, List.map_cons, List.cons.injEq, Option.some.injEq, false_iff, not_and]
          intro _ e
          rw [ih.2 e] at h; cases h
      | some zs =>
        have e := ih.1 h
        cases ys with
        | nil => simp
        | cons y ys =>
          simp only [id_eq, Option.bind_eq_bind, Option.bind_some, Option.pure_def, Option.some.injEq, List.cons.injEq, List.map_cons, e]
          exact and_congr Iff.rfl ⟨fun h => by rw [h], fun h => List.map_injective_iff.2 (fun _ _ => Option.some.inj) h⟩

theorem collapse_two (P : Par) (perm : AMap Nat Nat → AMap Nat Nat) (d d' : Data) (rest : List Data) :
    collapse P perm (d :: d' :: rest) = match d with
        | .metrics _ => (collapseG P (metricOps P) perm ((d :: d' :: rest).map Data.metrics?)).map fun r => some (.metrics r)
        | .logs _ => (collapseG P (plainOps LogRecord) perm ((d :: d' :: rest).map Data.logs?)).map fun r => some (.logs r)
        | .traces _ => (collapseG P (plainOps Span) perm ((d :: d' :: rest).map Data.traces?)).map fun r => some (.traces r)
        | .none => some none := by cases d <;> rfl

/-- **C35**, exactly, for every hash function and map order: merging crashes if and only if there are at least two payloads, the first
is not empty, and some other one is not of the same signal, or all are metrics and a metric with data comes to be merged into one that
has no data of the same kind. -/
theorem C35_panic_iff (P : Par) (perm : AMap Nat Nat → AMap Nat Nat) (ts : List Data) :
    collapse P perm ts = none ↔ 2 ≤ ts.length ∧ ts.head? ≠ some .none ∧
      ((∃ d ∈ ts, some d.signal ≠ ts.head?.map (·.signal)) ∨
        ∃ ds : List (List (ResourceG Metric)), ts = ds.map .metrics ∧ Clash (arrivals P [] [] ds.flatten)) := by
  match ts with
  | [] => simp [collapse]
  | [d] => simp [collapse]
  | d :: d' :: rest =>
    have hlen : 2 ≤ (d :: d' :: rest).length := by simp
    generalize hts : d :: d' :: rest = ts at hlen ⊢
    have hhead : ts.head? = some d := by rw [← hts]; rfl
    have hcol := collapse_two P perm d d' rest
    rw [hts] at hcol
    rw [hcol, hhead]
    simp only [hlen, true_and, Option.map_some, ne_eq, Option.some.injEq]
    have hplain : ∀ {β : Type} (f : Data → Option (List (ResourceG β))), collapseG P (plainOps β) perm (ts.map f) = none ↔ ∃ e ∈ ts, f e = none := by
      intro β f
      have : none ∈ ts.map f ↔ ∃ e ∈ ts, f e = none := by simp
      rw [← this]
      constructor
      · intro h
        cases hm : (ts.map f).mapM id with
        | none => exact mapM_id_none.1 hm
        | some l =>
          rw [mapM_id_some.1 hm] at h
          obtain ⟨out, ho⟩ := plain_some P perm l
          rw [ho] at h; cases h
      · intro h
        unfold collapseG
        rw [mapM_id_none.2 h]
    cases d with
    | none => simp
    | logs a =>
      simp only [Option.map_eq_none_iff, reduceCtorEq, not_false_eq_true, true_and]
      rw [hplain]
      have hno : ¬ ∃ ds : List (List (ResourceG Metric)), ts = ds.map .metrics ∧ Clash (arrivals P [] [] ds.flatten) := by
        rintro ⟨ds, h, -⟩
        rw [← hts] at h
        cases ds <;> simp at h
      simp only [hno, or_false]
      refine exists_congr fun e => and_congr_right fun _ => ?_
      cases e <;> simp [Data.logs?, Data.signal, Res.metrics, Res.logs, Res.traces]
    | traces a =>
      simp only [Option.map_eq_none_iff, reduceCtorEq, not_false_eq_true, true_and]
      rw [hplain]
      have hno : ¬ ∃ ds : List (List (ResourceG Metric)), ts = ds.map .metrics ∧ Clash (arrivals P [] [] ds.flatten) := by
        rintro ⟨ds, h, -⟩
        rw [← hts] at h
        cases ds <;> simp at h
      simp only [hno, or_false]
      refine exists_congr fun e => and_congr_right fun _ => ?_
      cases e <;> simp [Data.traces?, Data.signal, Res.metrics, Res.logs, Res.traces]
    | metrics a =>
      simp only [Option.map_eq_none_iff, reduceCtorEq, not_false_eq_true, true_and]
      cases hm : (ts.map Data.metrics?).mapM id with
      | none =>
        refine iff_of_true (by unfold collapseG; rw [hm]) (.inl ?_)
        have := mapM_id_none.1 hm
        obtain ⟨e, he, h⟩ := List.mem_map.1 this
        refine ⟨e, he, ?_⟩
        cases e <;> simp [Data.metrics?, Data.signal, Res.metrics, Res.logs, Res.traces] at h ⊢
      | some l =>
        have hl := mapM_id_some.1 hm
        have hall : ts = l.map .metrics := by
          clear hts hlen hhead hcol hplain hm
          induction ts generalizing l with
          | nil => cases l <;> simp at hl ⊢
          | cons t ts ih =>
            cases l with
            | nil => simp at hl
            | cons x l =>
              simp only [List.map_cons, List.cons.injEq] at hl ⊢
              refine ⟨?_, ih l hl.2⟩
              have h1 := hl.1
              cases t <;> simp [Data.metrics?] at h1 ⊢
              exact h1
        rw [hl, collapseG_eq, Option.map_eq_none_iff, addAll_clash]
        constructor
        · intro h; exact .inr ⟨l, hall, h⟩
        · rintro (⟨e, he, h⟩ | ⟨ds, h, hc⟩)
          · rw [hall] at he
            obtain ⟨x, -, rfl⟩ := List.mem_map.1 he
            exact absurd rfl h
          · have : ds = l := by
              rw [hall] at h
              exact (List.map_injective_iff.2 (fun a b e => by cases e; rfl) h).symm
            rw [← this]; exact hc

/-- It applies: a gauge, then a sum, then a metric without data that share name and scope: the sum clashes; without it nothing does. -/
example : Clash [⟨true, 7, some .gauge⟩, ⟨false, 7, none⟩, ⟨false, 7, some .sum⟩] :=
  ⟨[⟨true, 7, some .gauge⟩, ⟨false, 7, none⟩], _, [], rfl, rfl, by simp, some .gauge, rfl, by simp⟩

end Verif.Dt
