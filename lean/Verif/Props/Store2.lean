import Verif.Props.Store
import Verif.Props.Time
/-!
# C28–C32, continued
-/
namespace Verif.St
open Tm Tf
open Bt (shardWidth)
variable {σ : Type} (D : Dict σ) (st : σ)

/-- **C13**, **C14** for the scan: a scan with an explicit range reads the views that cover exactly that range, in the granularity
its length calls for (ranges whose length fits a `time.Duration`). -/
theorem C13_scan_views (E : Env) (sc : Scan) (a b : Int) (h : sc.time.range = some (a, b)) (hb : -2 ^ 63 ≤ b - a ∧ b - a < 2 ^ 63) :
    ∃ u, E.views sc = E.vbr a b u ∧
      (u = .H ↔ b - a < 24 * 3600 * 1000000000) ∧
      (u = .D ↔ 24 * 3600 * 1000000000 ≤ b - a ∧ b - a < 30 * 24 * 3600 * 1000000000) ∧
      (u = .M ↔ 30 * 24 * 3600 * 1000000000 ≤ b - a ∧ b - a < 360 * 24 * 3600 * 1000000000) ∧
      (u = .Y ↔ 360 * 24 * 3600 * 1000000000 ≤ b - a) := by
  refine ⟨chooseQuantum (timeSub b a), by simp only [Env.views, C14_explicit_range _ _ _ _ h], ?_⟩
  have e : timeSub b a = b - a := by unfold timeSub; rw [if_neg (by omega), if_neg (by omega)]
  rw [e]
  exact C13_quantum_by_length (b - a)

/-- **C13**, **C14** for the scan: without a range it reads the hours of the 15 minutes that end at now minus the offset. -/
theorem C14_scan_views (E : Env) (sc : Scan) (h : sc.time.range = none) :
    E.views sc = E.vbr (sc.time.now.getD E.clock - sc.time.offset.getD 0 - 15 * 60 * 1000000000)
      (sc.time.now.getD E.clock - sc.time.offset.getD 0) .H := by
  obtain ⟨h1, h2⟩ := C14_default_range E.clock sc.time h
  have h3 : (timeBounds E.clock sc.time).1 = sc.time.now.getD E.clock - sc.time.offset.getD 0 - 15 * 60 * 1000000000 := by omega
  have e : timeSub (timeBounds E.clock sc.time).2 (timeBounds E.clock sc.time).1 = 15 * 60 * 1000000000 := by
    unfold timeSub; rw [if_neg (by omega), if_neg (by omega)]; exact h2
  have q : chooseQuantum (15 * 60 * 1000000000) = .H := by decide
  simp only [Env.views]
  rw [e, q, h1, h3]

/-- Witness: a two-day range is read by days. -/
example (E : Env) : E.views { scope := Res.logs, time := { range := some (0, 172800000000000) } } = E.vbr 0 172800000000000 .D := rfl

theorem all_traces {ps : List Data} (h : ∀ p ∈ ps, p.signal = some Res.traces) : ∃ ds, ps = List.map Data.traces ds := by
  induction ps with
  | nil => exact ⟨[], rfl⟩
  | cons p ps ih =>
    obtain ⟨ds, rfl⟩ := ih fun x hx => h x (List.mem_cons_of_mem _ hx)
    have := h p List.mem_cons_self
    cases p with
    | traces d => exact ⟨d :: ds, rfl⟩
    | metrics _ => exact absurd this (by simp [Data.signal, Res.metrics, Res.traces])
    | logs _ => exact absurd this (by simp [Data.signal, Res.traces, Res.logs])
    | none => exact absurd this (by simp [Data.signal])

theorem all_metrics {ps : List Data} (h : ∀ p ∈ ps, p.signal = some Res.metrics) : ∃ ds, ps = List.map Data.metrics ds := by
  induction ps with
  | nil => exact ⟨[], rfl⟩
  | cons p ps ih =>
    obtain ⟨ds, rfl⟩ := ih fun x hx => h x (List.mem_cons_of_mem _ hx)
    have := h p List.mem_cons_self
    cases p with
    | metrics d => exact ⟨d :: ds, rfl⟩
    | traces _ => exact absurd this (by simp [Data.signal, Res.metrics, Res.traces])
    | logs _ => exact absurd this (by simp [Data.signal, Res.metrics, Res.logs])
    | none => exact absurd this (by simp [Data.signal])

/-- **C29**, partial: a range scan for traces with a filter returns the spans of exactly the matching samples, each once. -/
theorem C29_spans_partial (hD : D.Lawful) (hI : D.Injective) (hg : D.Good st) (ops : List (Op σ)) (hv : Valid D (fresh st) ops)
    (hi : Increasing (samplesOf D st ops)) (hok : ∀ o ∈ samplesOf D st ops, o.ok = true)
    (E : Env) (hE : E.Fair) (hF : E.NoFaults) (sc : Scan) (hscope : sc.scope = Res.traces) (k : Nat)
    (hk : ∀ l ∈ sc.asked, ∀ n, D.look (run D st ops).ctx.st l.encode = some n → n / shardWidth = k)
    (hopen : k ∈ (run D st ops).idx.opened) (ha : ∀ v ∈ E.views sc, Aligned (samplesOf D st ops) v)
    (hr : sc.time.range.isSome) (hfil : ∃ l ∈ sc.asked, l.pfx ≠ Pfx.unknown)
    (hone : ∀ o ∈ matching (samplesOf D st ops) E sc, OneView (E.views sc) o) :
    ∃ out, scan D (run D st ops) E sc = .data (some (.traces out)) ∧
      (spans (.traces out)).Perm ((matching (samplesOf D st ops) E sc).flatMap fun o => spans o.sample.data) := by
  have hx := C29_scan_exact_partial D st hD hI hg ops hv hi hok E hE hF sc (.inr (.inr hscope)) k hk hopen ha
  have hsig : ∀ o ∈ matching (samplesOf D st ops) E sc, o.sample.data.signal = some sc.scope := fun o ho => by
    obtain ⟨l, hl, hp⟩ := hfil
    exact matches_signal (mem_matching.1 ho).2.1 hl hp
  have hpk : picked sc (matching (samplesOf D st ops) E sc) = matching (samplesOf D st ops) E sc := by
    unfold picked
    cases hrr : sc.time.range with
    | none => rw [hrr] at hr; cases hr
    | some _ => rfl
  rw [hpk] at hx
  have hperm := payloads_perm (kind := sc.scope) hone hsig
  generalize matching (samplesOf D st ops) E sc = M at *
  by_cases hm : M = []
  · rw [if_pos hm] at hx
    rw [hx, hm, hscope]
    exact ⟨[], rfl, by simp [spans, Dt.plainRecords]⟩
  · rw [if_neg hm] at hx
    obtain ⟨ds, hds⟩ := all_traces (ps := payloads M sc.scope (E.views sc)) fun p hp => by
      obtain ⟨o, ho, rfl⟩ := List.mem_map.1 (hperm.mem_iff.1 hp)
      rw [hsig o ho, hscope]
    have hne : ds ≠ [] := by
      rintro rfl
      rw [hds] at hperm
      exact hm (List.map_eq_nil_iff.1 hperm.symm.eq_nil)
    obtain ⟨out, h1, h2, -⟩ := Dt.C33_traces E.P E.resOrder hE.res ds hne
    refine ⟨out, ?_, ?_⟩
    · rw [hx, hds]; unfold merged; rw [h1]
    · refine h2.trans ?_
      have e : Dt.plainRecords ds.flatten = (ds.map Data.traces).flatMap spans := by
        clear hds hne h1 h2
        induction ds with
        | nil => rfl
        | cons d ds ih =>
          rw [List.flatten_cons, List.map_cons, List.flatMap_cons, ← ih]
          simp [Dt.plainRecords, spans]
      rw [e, ← hds]
      refine (hperm.flatMap_right _).trans ?_
      rw [List.flatMap_map]

/-- **C29**, partial: a range scan for metrics with a filter returns the data points of exactly the matching samples, each once
with its kind, or panics (C35). -/
theorem C29_data_points_partial (hD : D.Lawful) (hI : D.Injective) (hg : D.Good st) (ops : List (Op σ)) (hv : Valid D (fresh st) ops)
    (hi : Increasing (samplesOf D st ops)) (hok : ∀ o ∈ samplesOf D st ops, o.ok = true)
    (E : Env) (hE : E.Fair) (hF : E.NoFaults) (sc : Scan) (hscope : sc.scope = Res.metrics) (k : Nat)
    (hk : ∀ l ∈ sc.asked, ∀ n, D.look (run D st ops).ctx.st l.encode = some n → n / shardWidth = k)
    (hopen : k ∈ (run D st ops).idx.opened) (ha : ∀ v ∈ E.views sc, Aligned (samplesOf D st ops) v)
    (hr : sc.time.range.isSome) (hfil : ∃ l ∈ sc.asked, l.pfx ≠ Pfx.unknown)
    (hone : ∀ o ∈ matching (samplesOf D st ops) E sc, OneView (E.views sc) o) :
    scan D (run D st ops) E sc = .panic ∨
    ∃ out, scan D (run D st ops) E sc = .data (some (.metrics out)) ∧
      (dataPoints (.metrics out)).Perm ((matching (samplesOf D st ops) E sc).flatMap fun o => dataPoints o.sample.data) := by
  have hx := C29_scan_exact_partial D st hD hI hg ops hv hi hok E hE hF sc (.inl hscope) k hk hopen ha
  have hsig : ∀ o ∈ matching (samplesOf D st ops) E sc, o.sample.data.signal = some sc.scope := fun o ho => by
    obtain ⟨l, hl, hp⟩ := hfil
    exact matches_signal (mem_matching.1 ho).2.1 hl hp
  have hpk : picked sc (matching (samplesOf D st ops) E sc) = matching (samplesOf D st ops) E sc := by
    unfold picked
    cases hrr : sc.time.range with
    | none => rw [hrr] at hr; cases hr
    | some _ => rfl
  rw [hpk] at hx
  have hperm := payloads_perm (kind := sc.scope) hone hsig
  generalize matching (samplesOf D st ops) E sc = M at *
  by_cases hm : M = []
  · rw [if_pos hm] at hx
    right
    rw [hx, hm, hscope]
    exact ⟨[], rfl, by simp [dataPoints, Dt.plainPoints]⟩
  · rw [if_neg hm] at hx
    obtain ⟨ds, hds⟩ := all_metrics (ps := payloads M sc.scope (E.views sc)) fun p hp => by
      obtain ⟨o, ho, rfl⟩ := List.mem_map.1 (hperm.mem_iff.1 hp)
      rw [hsig o ho, hscope]
    have hne : ds ≠ [] := by
      rintro rfl
      rw [hds] at hperm
      exact hm (List.map_eq_nil_iff.1 hperm.symm.eq_nil)
    rw [hds] at hx
    unfold merged at hx
    cases hc : Dt.collapse E.P E.resOrder (ds.map .metrics) with
    | none => left; rw [hx, hc]
    | some res =>
      right
      obtain ⟨out, h1, h2, -⟩ := Dt.C33_metrics E.P E.resOrder hE.res ds hne res hc
      refine ⟨out, by rw [hx, hc, h1], h2.trans ?_⟩
      have e : Dt.plainPoints ds.flatten = (ds.map Data.metrics).flatMap dataPoints := by
        clear hds hne h1 h2 hc hx
        induction ds with
        | nil => rfl
        | cons d ds ih =>
          rw [List.flatten_cons, List.map_cons, List.flatMap_cons, ← ih]
          simp [Dt.plainPoints, dataPoints]
      rw [e, ← hds]
      refine (hperm.flatMap_right _).trans ?_
      rw [List.flatMap_map]

/-! ### What can be said without the provisos -/

/-- **C28** without alignment: every payload that goes into a result is empty, or is that of a sample of a scanned view that
matches all filters or whose id follows that of a matching sample. -/
theorem C28_match_or_next (hD : D.Lawful) (hI : D.Injective) (hg : D.Good st) (ops : List (Op σ)) (hv : Valid D (fresh st) ops)
    (hi : Increasing (samplesOf D st ops)) (E : Env) (hE : E.Fair) (hF : ∀ k, E.findFault k = false) (sc : Scan) (k : Nat)
    (hk : ∀ l ∈ sc.asked, ∀ n, D.look (run D st ops).ctx.st l.encode = some n → n / shardWidth = k) :
    (∃ r, scan D (run D st ops) E sc = r ∧ (r = .err ∨ r = .undefined ∨ r = .data none ∨ r = .data (Dt.zero sc.scope))) ∨
    ∃ ps, scan D (run D st ops) E sc = merged E ps ∧
      ∀ p ∈ ps, p = .none ∨ ∃ o ∈ samplesOf D st ops, ∃ v ∈ E.views sc, o.InView v ∧ o.sample.data = p ∧ p.signal = some sc.scope ∧
        ∃ m ∈ samplesOf D st ops, m.Matches sc ∧ m.InView v ∧ (o = m ∨ o.sample.id = m.sample.id + 1) := by
  obtain ⟨recs, so, h, hos, -⟩ := hist_run hD hg ops hv
  rw [hos] at hi ⊢
  obtain ⟨cols, hc, -, -⟩ := compileFilters_spec (D := D) (st := (run D st ops).ctx.st) hF sc
  have hsound := fun u => h.found_sound hI hi hE hF hk hc (u := u)
  unfold scan
  rw [hc]
  simp only
  split
  · exact .inl ⟨_, rfl, by simp⟩
  · split
    · exact .inl ⟨_, rfl, by simp⟩
    · cases hr : (run D st ops).idx.rows (E.views sc) (E.colOrder (Sh.groupCols cols)) with
      | none => exact .inl ⟨_, rfl, by simp⟩
      | some ids =>
        rw [hr, Option.getD_some] at hsound
        simp only
        split
        · exact .inl ⟨_, rfl, by simp⟩
        · unfold readSamples
          split
          · cases hu : Df.unmarshal (run D st ops).frame E.frameFault sc.scope (chosen sc ids) (E.views sc) with
            | outOfRange => exact .inl ⟨_, rfl, by simp⟩
            | err => exact .inl ⟨_, rfl, by simp⟩
            | ok l =>
              right
              refine ⟨l.map (·.2), rfl, fun p hp => ?_⟩
              obtain ⟨e, he, rfl⟩ := List.mem_map.1 hp
              obtain ⟨v, hv, r, d, hfr, hset, hw, hrow, hproj⟩ := (Df.unmarshal_ok hu).1 e he
              have hids : e.1 ∈ ids := by
                unfold chosen at hw
                cases hrange : sc.time.range with
                | some _ => rw [hrange] at hw; exact hw
                | none =>
                  rw [hrange] at hw
                  simp only at hw
                  cases hg : ids.getLast? with
                  | none => rw [hg] at hw; simp at hw
                  | some i => rw [hg, List.mem_singleton] at hw; rw [hw]; exact List.mem_of_getLast? hg
              obtain ⟨c', hcm', -, m, hm', hid', hmm, -⟩ := hsound e.1 hids
              have hbuild := hfr
              rw [h.frame', Df.run_view _ h.valid] at hbuild
              obtain ⟨x, hx, hxid, -⟩ := (Df.mem_set_build _ _ _ r hbuild).1 hset
              obtain ⟨cx, hcx, ox, hox, hoxv, rfl⟩ := mem_batches hx
              have hmx : m = ox := unique hi (List.mem_flatMap.2 ⟨c', hcm', hm'⟩) (List.mem_flatMap.2 ⟨cx, hcx, hox⟩) (hid'.trans hxid)
              have hmv : m.InView v := hmx ▸ hoxv
              -- which sample is in that row
              have hwho : d = .none ∨ ∃ y ∈ (Df.batches (recs.map (·.call)) v).flatten, y.data = d ∧ (y.id = e.1 ∨ y.id = e.1 + 1) := by
                cases hb : Df.batches (recs.map (·.call)) v with
                | nil => rw [hb] at hx; simp at hx
                | cons b0 rest =>
                  obtain ⟨r', hr', h0, h1, h2, -⟩ := Df.C23_layout_exact _ h.valid v b0 rest hb (batches_increasing hi v)
                  rw [← h.frame', hfr] at hr'; cases hr'
                  have hs := Df.shift_le [b0]
                  by_cases hA : ∃ y ∈ b0, y.id - Df.shift [b0] = e.1
                  · obtain ⟨y, hy, hyid⟩ := hA
                    obtain ⟨h3, h4⟩ := h0 y hy
                    rw [hyid, hrow, Option.some.injEq] at h4
                    exact .inr ⟨y, by simp [hy], h4.symm, by omega⟩
                  · by_cases hB : ∃ y ∈ rest.flatten, y.id = e.1
                    · obtain ⟨y, hy, hyid⟩ := hB
                      have h4 := h1 y hy
                      rw [hyid, hrow, Option.some.injEq] at h4
                      exact .inr ⟨y, by rw [List.flatten_cons]; exact List.mem_append_right _ hy, h4.symm, .inl hyid⟩
                    · left
                      have h4 := h2 e.1 (List.getElem?_eq_some_iff.1 hrow).1 (fun y hy he => hA ⟨y, hy, he⟩) (fun y hy he => hB ⟨y, hy, he⟩)
                      rw [hrow, Option.some.injEq] at h4
                      exact h4
              rcases hwho with rfl | ⟨y, hy, hyd, hyid⟩
              · left; rw [hproj]; rfl
              · obtain ⟨cy, hcy, oy, hoy, hoyv, rfl⟩ := mem_batches hy
                by_cases hk : d.signal = some sc.scope
                · right
                  have hpd : e.2 = d := by rw [hproj, Df.project_eq hk]
                  refine ⟨oy, List.mem_flatMap.2 ⟨cy, hcy, hoy⟩, v, hv, hoyv, by rw [hpd]; exact hyd, by rw [hpd]; exact hk,
                    m, List.mem_flatMap.2 ⟨c', hcm', hm'⟩, hmm, hmv, ?_⟩
                  rcases hyid with hyid | hyid
                  · left
                    exact unique hi (List.mem_flatMap.2 ⟨cy, hcy, hoy⟩) (List.mem_flatMap.2 ⟨c', hcm', hm'⟩)
                      ((show oy.sample.id = e.1 from hyid).trans hid'.symm)
                  · right; rw [hid']; exact hyid
                · left
                  rw [hproj]
                  cases d with
                  | none => rfl
                  | metrics rs => simp only [Df.project]; rw [if_neg]; rintro e; exact hk (by rw [e]; rfl)
                  | traces rs => simp only [Df.project]; rw [if_neg]; rintro e; exact hk (by rw [e]; rfl)
                  | logs rs => simp only [Df.project]; rw [if_neg]; rintro e; exact hk (by rw [e]; rfl)
          · exact .inl ⟨_, rfl, by simp⟩

/-- **C29** is false of the code after a restart: until the next flush every scan without faults returns the empty result, whatever
was flushed. -/
theorem C29_blind_after_restart (hD : D.Lawful) (hg : D.Good st) (ops : List (Op σ)) (st' : σ)
    (hv : Valid D (fresh st) (ops ++ [.restart st'])) (E : Env) (hE : E.Fair) (hF : E.NoFaults) (sc : Scan) :
    scan D (run D st (ops ++ [.restart st'])) E sc = .data (Dt.zero sc.scope) := by
  have hop : (run D st (ops ++ [.restart st'])).idx.opened = [] := by
    unfold run; rw [List.foldl_append]; rfl
  obtain ⟨recs, so, h, -, -⟩ := hist_run hD hg _ hv
  obtain ⟨cols, hc, -, -⟩ := compileFilters_spec (D := D) (st := (run D st (ops ++ [.restart st'])).ctx.st) hF.find sc
  unfold scan
  rw [hc]
  simp only
  split
  · rfl
  · rw [hF.rows]
    simp only [Bool.false_eq_true, if_false]
    have : ((run D st (ops ++ [.restart st'])).idx.rows (E.views sc) (E.colOrder (Sh.groupCols cols))).getD [] = [] := by
      rw [List.eq_nil_iff_forall_not_mem]
      intro u hu
      have hu' := hu
      rw [h.idx', Sh.C21_lookup_exact so _ cols _ (hE.cols _)] at hu'
      obtain ⟨c, hcc, -⟩ := hu'.2.1
      have := hu'.1 c hcc
      rw [← Sh.mem_opened_run, ← h.idx', hop] at this
      simp at this
    cases hr : (run D st (ops ++ [.restart st'])).idx.rows (E.views sc) (E.colOrder (Sh.groupCols cols)) with
    | none => rfl
    | some ids => rw [hr, Option.getD_some] at this; simp [this]

/-- **C29** is false of the code: a sample that was flushed successfully and is found, is not found after a restart. -/
theorem C29_refuted : ∃ st', Valid listDict (fresh []) (fullOps ++ [.restart st']) ∧
    scan listDict (run listDict [] fullOps) toyEnv { scope := Res.logs, filters := [.base Pfx.logsLevel [97]], time := { range := some (0, 10) } }
      = .data (some (logAt 5 [97])) ∧
    scan listDict (run listDict [] (fullOps ++ [.restart st'])) toyEnv
      { scope := Res.logs, filters := [.base Pfx.logsLevel [97]], time := { range := some (0, 10) } } = .data (some (.logs [])) := by
  refine ⟨(run listDict [] fullOps).ctx.st, ⟨logFlush_fair _ (by decide), by decide +kernel, ?_, fun a n h => h, trivial⟩, by decide +kernel, by decide +kernel⟩
  show List.length _ ≤ 2 ^ 64
  have : List.length (run listDict [] fullOps).ctx.st = 4 := by decide +kernel
  have e : (saveSamples listDict (fresh []) (logFlush [(0, 5, [97]), (1, 7, [98])] 5)).1 = run listDict [] fullOps := rfl
  rw [this]; decide

/-! ## C30: read errors -/

/-- **C30**, partial: an error of the index, or of looking up a label that is asked for (with everything before it known), is
returned (missing: errors of the data frame, `C30_frame_errors_dropped`). -/
theorem C30_index_errors_partial (s : Store σ) (E : Env) (sc : Scan) :
    (∀ cols, compileFilters D s.ctx.st E sc = some cols → cols ≠ [] → E.rowsFault = true → scan D s E sc = .err) ∧
    (∀ pre l post, sc.asked = pre ++ l :: post → E.findFault l.encode = true →
      (∀ x ∈ pre, E.findFault x.encode = false ∧ (D.look s.ctx.st x.encode).isSome) → scan D s E sc = .err) := by
  refine ⟨fun cols hc hne hr => ?_, fun pre l post ha hf hp => ?_⟩
  · unfold scan; rw [hc]; simp [hne, hr]
  · have : compileFilters D s.ctx.st E sc = none := by
      unfold compileFilters Scan.asked at *
      split
      · rename_i h0
        rw [if_pos h0] at ha
        cases pre with
        | nil => simp only [List.nil_append, List.cons.injEq] at ha; unfold find; rw [ha.1, hf]; rfl
        | cons x xs => have := congrArg List.length ha; simp at this
      · rename_i h0
        rw [if_neg h0] at ha
        generalize ([] : Bm) = r
        clear h0
        generalize sc.filters = fs at ha ⊢
        induction fs generalizing pre r with
        | nil => simp at ha
        | cons f fs ih =>
          unfold filterLoop
          cases hl : f.label sc.scope with
          | none => rw [List.filterMap_cons_none hl] at ha; exact ih pre hp r ha
          | some x =>
            rw [List.filterMap_cons_some hl] at ha
            cases pre with
            | nil =>
              simp only [List.nil_append, List.cons.injEq] at ha
              simp only [find, ha.1, hf, if_true]
            | cons y ys =>
              simp only [List.cons_append, List.cons.injEq] at ha
              obtain ⟨h1, h2⟩ := hp y List.mem_cons_self
              obtain ⟨n, hn⟩ := Option.isSome_iff_exists.1 h2
              simp only [find, ha.1, h1, hn]
              exact ih ys (fun z hz => hp z (List.mem_cons_of_mem _ hz)) _ ha.2
    unfold scan; rw [this]

/-- **C30** is false of the code, for every store and scan: whether reading the data frame fails never makes a scan return an
error. -/
theorem C30_frame_errors_dropped (s : Store σ) (E : Env) (sc : Scan) (fault : Bytes → Bool) :
    scan D s { E with frameFault := fault } sc = .err ↔ scan D s E sc = .err := by
  have hc : compileFilters D s.ctx.st { E with frameFault := fault } sc = compileFilters D s.ctx.st E sc := by
    unfold compileFilters
    have hf : ∀ l, find D s.ctx.st { E with frameFault := fault } l = find D s.ctx.st E l := fun l => rfl
    rw [hf]
    congr 1
    generalize ([] : Bm) = r
    induction sc.filters generalizing r with
    | nil => rfl
    | cons f fs ih =>
      unfold filterLoop
      cases f.label sc.scope with
      | none => exact ih r
      | some l =>
        simp only [hf]
        split <;> first | rfl | exact ih _
  have hrs : ∀ ids E', readSamples s E' sc ids = .err ↔ ¬ (sc.scope = Res.metrics ∨ sc.scope = Res.logs ∨ sc.scope = Res.traces) := by
    intro ids E'
    unfold readSamples
    split
    · rename_i h
      simp only [h, not_true, iff_false]
      split
      · simp
      · simp
      · split <;> simp
    · rename_i h; simp [h]
  unfold scan
  rw [hc]
  cases compileFilters D s.ctx.st E sc with
  | none => rfl
  | some cols =>
    show (if cols = [] then _ else _) = Result.err ↔ (if cols = [] then _ else _) = Result.err
    split
    · rfl
    · show (if E.rowsFault = true then _ else _) = Result.err ↔ (if E.rowsFault = true then _ else _) = Result.err
      split
      · rfl
      · show (match s.idx.rows (E.views sc) (E.colOrder (Sh.groupCols cols)) with | none => _ | some ids => _) = Result.err ↔
          (match s.idx.rows (E.views sc) (E.colOrder (Sh.groupCols cols)) with | none => _ | some ids => _) = Result.err
        cases s.idx.rows (E.views sc) (E.colOrder (Sh.groupCols cols)) with
        | none => rfl
        | some ids =>
          simp only
          split
          · rfl
          · rw [hrs, hrs]

/-- **C30** refuted with a witness: the read of the only view fails, and the scan reports success with a nil result, although a
sample matches. -/
theorem C30_refuted :
    scan listDict (run listDict [] fullOps) toyEnv { scope := Res.logs, filters := [.base Pfx.logsLevel [97]], time := { range := some (0, 10) } }
      = .data (some (logAt 5 [97])) ∧
    scan listDict (run listDict [] fullOps) { toyEnv with frameFault := fun _ => true }
      { scope := Res.logs, filters := [.base Pfx.logsLevel [97]], time := { range := some (0, 10) } } = .data none := by
  refine ⟨by decide +kernel, by decide +kernel⟩

/-! ## C31: limit and direction -/

/-- **C31**, exact: the result does not depend on limit and direction, for every store and scan. -/
theorem C31_ignored (s : Store σ) (E : Env) (sc : Scan) (limit : Nat) (reverse : Bool) :
    scan D s E { sc with limit := limit, reverse := reverse } = scan D s E sc := rfl

/-- Two samples with the same severity. -/
def twoOps : List (Op (List Bytes)) := [.flush (logFlush [(0, 5, [97]), (1, 7, [97])] 5)]

/-- **C31** is false of the code: limit 1 returns the records of two samples, in the same order in both directions. -/
theorem C31_refuted : ∀ reverse, ∃ out, scan listDict (run listDict [] twoOps) toyEnv
      { scope := Res.logs, filters := [.base Pfx.logsLevel [97]], time := { range := some (0, 10) }, limit := 1, reverse := reverse }
    = .data (some (.logs out)) ∧ (Dt.plainRecords out).map (·.ts) = [5, 7] := by
  intro reverse
  refine ⟨[{ scopes := [{ items := [{ ts := 5, severity := [97] }, { ts := 7, severity := [97] }] }] }], ?_, rfl⟩
  rw [C31_ignored listDict _ _ { scope := Res.logs, filters := [.base Pfx.logsLevel [97]], time := { range := some (0, 10) } }]
  decide +kernel

/-! ## C32: reading labels back -/

theorem bulk_ok {ids : List Nat} (h : ∀ n ∈ ids, (D.keyOf st n).isSome) :
    (bulk D st ids).2 = true ∧ (bulk D st ids).1.map some = ids.map (D.keyOf st) := by
  induction ids with
  | nil => exact ⟨rfl, rfl⟩
  | cons n ids ih =>
    obtain ⟨k, hk⟩ := Option.isSome_iff_exists.1 (h n List.mem_cons_self)
    obtain ⟨h1, h2⟩ := ih fun m hm => h m (List.mem_cons_of_mem _ hm)
    simp only [bulk, hk, List.map_cons, h1, h2, and_self]

/-- **C32**, exact: the labels read back for a sample of a successful flush, in a view it is filed under, are those of its labels
that live in a shard used since the last restart, each once. -/
theorem C32_labels_exact (hD : D.Lawful) (hI : D.Injective) (hg : D.Good st) (ops : List (Op σ)) (hv : Valid D (fresh st) ops)
    (hi : Increasing (samplesOf D st ops)) (o : Offered) (ho : o ∈ samplesOf D st ops) (hok : o.ok = true) (v : Bytes)
    (hiv : o.InView v) (order : List Nat) (hor : order.Perm (run D st ops).idx.opened) :
    (labels D (run D st ops) v o.sample.id order).2 = true ∧ (labels D (run D st ops) v o.sample.id order).1.Nodup ∧
    ∀ k, k ∈ (labels D (run D st ops) v o.sample.id order).1 ↔
      ∃ l, (Carries o.sample.data l ∨ l = { resource := o.res }) ∧ k = l.encode ∧
        ∃ n, D.look (run D st ops).ctx.st k = some n ∧ n / shardWidth ∈ (run D st ops).idx.opened := by
  obtain ⟨recs, so, h, hos, -⟩ := hist_run hD hg ops hv
  rw [hos] at hi ho
  obtain ⟨c, hcm, hoc⟩ := List.mem_flatMap.1 ho
  have hcols : ∀ n, n ∈ (run D st ops).idx.rowColumns v o.sample.id order ↔
      n / shardWidth ∈ (run D st ops).idx.opened ∧ o.HasCol D (run D st ops).ctx.st n := by
    intro n
    rw [h.idx'] at hor ⊢
    rw [Sh.C47_row_read_back so v o.sample.id order hor n, ← Sh.mem_opened_run]
    refine and_congr_right fun _ => ⟨fun hs => ?_, fun hh => h.stored_complete hcm hoc hok hiv hh⟩
    obtain ⟨c', hcm', -, o', ho', hid', -, hh⟩ := h.stored_sound hs
    have : o' = o := unique hi (List.mem_flatMap.2 ⟨c', hcm', ho'⟩) ho hid'
    exact this ▸ hh
  have hkey : ∀ n, o.HasCol D (run D st ops).ctx.st n → ∃ l, (Carries o.sample.data l ∨ l = { resource := o.res }) ∧
      D.look (run D st ops).ctx.st l.encode = some n ∧ D.keyOf (run D st ops).ctx.st n = some l.encode := by
    rintro n ⟨l, hl, hn⟩
    exact ⟨l, hl, hn, hI.back h.good hn⟩
  have hsome : ∀ n ∈ (run D st ops).idx.rowColumns v o.sample.id order, (D.keyOf (run D st ops).ctx.st n).isSome := fun n hn => by
    obtain ⟨l, -, -, hk⟩ := hkey n ((hcols n).1 hn).2
    rw [hk]; rfl
  obtain ⟨h1, h2⟩ := bulk_ok D (run D st ops).ctx.st hsome
  have hmem : ∀ k, k ∈ (labels D (run D st ops) v o.sample.id order).1 ↔
      ∃ n ∈ (run D st ops).idx.rowColumns v o.sample.id order, D.keyOf (run D st ops).ctx.st n = some k := by
    intro k
    have : k ∈ (labels D (run D st ops) v o.sample.id order).1 ↔ some k ∈ (labels D (run D st ops) v o.sample.id order).1.map some := by simp
    rw [this]
    unfold labels
    rw [h2, List.mem_map]
  refine ⟨h1, ?_, fun k => ?_⟩
  · have hnd : ((run D st ops).idx.rowColumns v o.sample.id order).Nodup := by
      rw [h.idx'] at hor ⊢
      exact List.Pairwise.imp (fun h => ne_of_lt h) (Sh.C47_row_order_independent so v o.sample.id order order hor hor).2
    have : ((labels D (run D st ops) v o.sample.id order).1.map some).Nodup := by
      unfold labels
      rw [h2]
      refine List.Nodup.map_on (fun a ha b hb e => ?_) hnd
      obtain ⟨la, -, hla, hka⟩ := hkey a ((hcols a).1 ha).2
      obtain ⟨lb, -, hlb, hkb⟩ := hkey b ((hcols b).1 hb).2
      rw [hka, hkb, Option.some.injEq] at e
      rw [e, hlb] at hla
      exact (Option.some.inj hla).symm
    exact List.Nodup.of_map _ this
  · rw [hmem]
    constructor
    · rintro ⟨n, hn, hk⟩
      obtain ⟨l, hl, hln, hk'⟩ := hkey n ((hcols n).1 hn).2
      rw [hk, Option.some.injEq] at hk'
      exact ⟨l, hl, hk', n, by rw [hk']; exact hln, ((hcols n).1 hn).1⟩
    · rintro ⟨l, hl, rfl, n, hn, hop⟩
      exact ⟨n, (hcols n).2 ⟨hop, l, hl, hn⟩, hI.back h.good hn⟩

/-- **C32**, partial: with fewer than 2^20 labels and no restart, exactly the labels of the sample are read back (missing: after a
restart, and more than one shard). -/
theorem C32_labels_partial (hD : D.Lawful) (hI : D.Injective) (hg : D.Good st) (ops : List (Op σ)) (hv : Valid D (fresh st) ops)
    (hnr : ∀ op ∈ ops, ∀ st, op ≠ .restart st) (hsmall : ∀ a n, D.look (run D st ops).ctx.st a = some n → n < 2 ^ 20)
    (hi : Increasing (samplesOf D st ops)) (hall : ∀ o ∈ samplesOf D st ops, o.ok = true)
    (o : Offered) (ho : o ∈ samplesOf D st ops) (v : Bytes)
    (hiv : o.InView v) (order : List Nat) (hor : order.Perm (run D st ops).idx.opened) (k : Bytes) :
    k ∈ (labels D (run D st ops) v o.sample.id order).1 ↔
      ∃ l, (Carries o.sample.data l ∨ l = { resource := o.res }) ∧ k = l.encode := by
  rw [(C32_labels_exact D st hD hI hg ops hv hi o ho (hall o ho) v hiv order hor).2.2 k]
  have hop : 0 ∈ (run D st ops).idx.opened := by
    rcases small_open D st hD hg ops hv hnr hall hsmall with h | h
    · exact h
    · rw [h] at ho; simp at ho
  obtain ⟨recs, so, h, hos, -⟩ := hist_run hD hg ops hv
  rw [hos] at ho
  obtain ⟨c, hcm, hoc⟩ := List.mem_flatMap.1 ho
  constructor
  · rintro ⟨l, hl, e, -⟩; exact ⟨l, hl, e⟩
  · rintro ⟨l, hl, rfl⟩
    obtain ⟨n, hn⟩ := h.known hcm hoc hl
    refine ⟨l, hl, rfl, n, hn, ?_⟩
    have := hsmall _ _ hn
    have e : n / shardWidth = 0 := by unfold shardWidth; omega
    rw [e]; exact hop

/-- The labels of sample 1 of the example: the logs resource label `2:0:` is there because sample 0 was logs. -/
example : labels listDict (run listDict [] fullOps) hourView 1 [0] =
    ([Label.encode { resource := Res.logs }, Label.encode { resource := Res.logs, pfx := Pfx.logsLevel, key := [98] }], true) := by
  decide +kernel

/-- **C32** is false of the code: after a restart the labels of a flushed sample are gone. -/
theorem C32_refuted : ∃ st', Valid listDict (fresh []) (fullOps ++ [.restart st']) ∧
    labels listDict (run listDict [] (fullOps ++ [.restart st'])) hourView 1
      (run listDict [] (fullOps ++ [.restart st'])).idx.opened = ([], true) := by
  obtain ⟨st', h, -, -⟩ := C29_refuted
  refine ⟨st', h, ?_⟩
  have : (run listDict [] (fullOps ++ [.restart st'])).idx.opened = [] := by
    unfold run; rw [List.foldl_append]; rfl
  unfold labels Sh.Store.rowColumns
  rw [this]
  rfl

/-! ### The hypotheses hold of a concrete history -/

theorem inView_iff {o : Offered} (h : startOf o.sample.data < 2 ^ 64) (v : Bytes) :
    o.InView v ↔ v ∈ (sampleViews (startOf o.sample.data)).getD [] := by
  obtain ⟨vs, h1, h2, -⟩ := Df.sampleViews_spec h
  rw [h1, Option.getD_some, h2]; rfl

/-- Numbers of the list dictionary are below its length. -/
theorem listDict_lt (st : List Bytes) (a : Bytes) (n : Nat) (h : listDict.look st a = some n) : n < st.length := by
  simp only [listDict] at h
  split at h
  · rename_i hm
    cases h
    exact List.idxOf_lt_length_of_mem hm
  · cases h

/-- For `fullOps` and the scan for severity `a`: all hypotheses of C27–C29 hold, and sample 0 matches. -/
theorem fullOps_hypotheses :
    Valid listDict (fresh []) fullOps ∧ Increasing (samplesOf listDict [] fullOps) ∧
    (∀ o ∈ samplesOf listDict [] fullOps, o.ok = true) ∧
    (∀ a n, listDict.look (run listDict [] fullOps).ctx.st a = some n → n < 2 ^ 20) ∧
    (∀ v ∈ [hourView], Aligned (samplesOf listDict [] fullOps) v) ∧
    0 ∈ (run listDict [] fullOps).idx.opened ∧
    ∃ o ∈ samplesOf listDict [] fullOps, OneView [hourView] o ∧
      o.Matches { scope := Res.logs, filters := [.base Pfx.logsLevel [97]] } := by
  have hsam : samplesOf listDict [] fullOps =
      [⟨0, { id := 0, data := logAt 5 [97] }, true⟩, ⟨Res.logs, { id := 1, data := logAt 7 [98] }, true⟩] := by
    have h1 : (saveSamples listDict (fresh []) (logFlush [(0, 5, [97]), (1, 7, [98])] 5)).2 = .ok := by decide +kernel
    show tag ((saveSamples listDict (fresh []) (logFlush [(0, 5, [97]), (1, 7, [98])] 5)).2 == .ok) 0 _ ++ [] = _
    rw [h1]; rfl
  have hin : Offered.InView ⟨0, { id := 0, data := logAt 5 [97] }, true⟩ hourView := by
    rw [inView_iff (by decide +kernel)]; decide +kernel
  have hst : List.length (run listDict [] fullOps).ctx.st = 4 := by decide +kernel
  refine ⟨fullOps_valid, fullOps_increasing, ?_, ?_, ?_, by decide +kernel, ?_⟩
  · rw [hsam]; simp
  · intro a n h
    have := listDict_lt _ _ _ h
    rw [hst] at this
    omega
  · intro v hv
    rw [List.mem_singleton] at hv
    left
    rw [hsam, hv]
    exact ⟨_, List.mem_cons_self, rfl, rfl, hin⟩
  · rw [hsam]
    refine ⟨_, List.mem_cons_self, ⟨[], hourView, [], rfl, hin, by simp⟩, by simp [Scan.asked, Filter.label], fun l hl => ?_⟩
    simp only [Scan.asked, Filter.label, List.filterMap_cons, List.filterMap_nil, reduceCtorEq, if_false, List.mem_singleton] at hl
    refine ⟨{ resource := Res.logs, pfx := Pfx.logsLevel, key := [97] }, .inl ?_, by rw [hl]⟩
    exact ⟨_, List.mem_singleton_self _, .inr (.inr ⟨_, List.mem_singleton_self _, .inr (.inr ⟨_, List.mem_singleton_self _,
      .inl ⟨by simp, rfl⟩⟩)⟩)⟩

end Verif.St
