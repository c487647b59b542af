import Verif.Lemmas.Collapse3
import Verif.Lemmas.Bytes
/-!
# C33–C36: merging the payloads of a scan

`P` is any hash function and any encoding of attributes; `perm` any iteration order of the map of resources.
-/
namespace Verif.Dt
variable {α : Type}

/-! ### From `collapse` to the merge of one signal -/

theorem collapse_logs (P : Par) (perm : AMap Nat Nat → AMap Nat Nat) {ds : List (List (ResourceG LogRecord))} (h : 2 ≤ ds.length) :
    collapse P perm (ds.map .logs) = (collapseG P (plainOps LogRecord) perm (ds.map some)).map fun r => some (.logs r) := by
  match ds, h with
  | a :: b :: l, _ => simp [collapse, Data.logs?, Function.comp_def]

theorem collapse_traces (P : Par) (perm : AMap Nat Nat → AMap Nat Nat) {ds : List (List (ResourceG Span))} (h : 2 ≤ ds.length) :
    collapse P perm (ds.map .traces) = (collapseG P (plainOps Span) perm (ds.map some)).map fun r => some (.traces r) := by
  match ds, h with
  | a :: b :: l, _ => simp [collapse, Data.traces?, Function.comp_def]

theorem collapse_metrics (P : Par) (perm : AMap Nat Nat → AMap Nat Nat) {ds : List (List (ResourceG Metric))} (h : 2 ≤ ds.length) :
    collapse P perm (ds.map .metrics) = (collapseG P (metricOps P) perm (ds.map some)).map fun r => some (.metrics r) := by
  match ds, h with
  | a :: b :: l, _ => simp [collapse, Data.metrics?, Function.comp_def]

theorem collapse_single (P : Par) (perm : AMap Nat Nat → AMap Nat Nat) (d : Data) : collapse P perm [d] = some (some d) := rfl

theorem plain_some (P : Par) (perm : AMap Nat Nat → AMap Nat Nat) (ds : List (List (ResourceG α))) :
    ∃ out, collapseG P (plainOps α) perm (ds.map some) = some out := by
  obtain ⟨st, h⟩ := addAll_some (plain_ok P α) (plain_safe P α (groups P (Kd.plain α) ds.flatten)) ds.flatten {}
    (inv_empty _ _ _) (groups_all _ _ _)
  exact ⟨_, by rw [collapseG_eq, h]; rfl⟩

theorem metrics_some {P : Par} {ds : List (List (ResourceG Metric))} (hk : SameKinds P ds.flatten)
    (perm : AMap Nat Nat → AMap Nat Nat) : ∃ out, collapseG P (metricOps P) perm (ds.map some) = some out := by
  obtain ⟨st, h⟩ := addAll_some (metric_ok P) (metric_safe hk) ds.flatten {} (inv_empty _ _ _) (groups_all _ _ _)
  exact ⟨_, by rw [collapseG_eq, h]; rfl⟩

theorem recs_plain (P : Par) (rs : List (ResourceG α)) :
    recsL P (Kd.plain α) (fun rh sh _ => (rh, sh)) rs = (records P rs).map fun x => ((x.1, x.2.1), x.2.2) := by
  simp only [recsL, records, List.map_flatMap, List.map_map, Function.comp_def]
  refine List.flatMap_congr fun r _ => ?_
  unfold recsR
  refine List.flatMap_congr fun s _ => ?_
  unfold recsS recsI
  simp only [Kd.plain, List.map_cons, List.map_nil]
  induction s.items with
  | nil => rfl
  | cons x l ih => simp [ih]

theorem recs_plain_unit (P : Par) (rs : List (ResourceG α)) :
    recsL P (Kd.plain α) (fun _ _ _ => ()) rs = (plainRecords rs).map fun x => ((), x) := by
  simp only [recsL, plainRecords, List.map_flatMap]
  refine List.flatMap_congr fun r _ => ?_
  unfold recsR
  refine List.flatMap_congr fun s _ => ?_
  unfold recsS recsI
  simp only [Kd.plain, List.map_cons, List.map_nil]
  induction s.items with
  | nil => rfl
  | cons x l ih => simp [ih]

theorem recs_metric (P : Par) (rs : List (ResourceG Metric)) :
    recsL P (Kd.metric P) (fun rh sh mh => (rh, sh, mh)) rs = (points P rs).map fun x => ((x.1, x.2.1, x.2.2.1), x.2.2.2) := by
  simp only [recsL, points, List.map_flatMap, List.map_map, Function.comp_def]
  rfl

theorem recs_metric_unit (P : Par) (rs : List (ResourceG Metric)) :
    recsL P (Kd.metric P) (fun _ _ _ => ()) rs = (plainPoints rs).map fun x => ((), x) := by
  simp only [recsL, plainPoints, List.map_flatMap]
  rfl

theorem perm_of_map_inj {β γ : Type} {f : β → γ} (g : γ → β) (hg : ∀ x, g (f x) = x) {a b : List β} (h : (a.map f).Perm (b.map f)) : a.Perm b := by
  have := h.map g
  simpa [List.map_map, Function.comp_def, hg] using this

theorem lab_plain {P : Par} {ds : List (List (ResourceG α))} (h : ScopesApart P ds.flatten) :
    LabOk (Kd.plain α) (groups P (Kd.plain α) ds.flatten) (fun rh sh _ => (rh, sh)) where
  scope := fun a b sh _ h1 h2 => by rw [groups_apart h a b sh h1 h2]
  item := fun a sh _ b sh' _ h1 _ h2 _ e => by
    have e' : sh = sh' := e
    subst e'
    rw [groups_apart h a b sh h1 h2]

theorem lab_metric {P : Par} {ds : List (List (ResourceG Metric))} (h : ScopesApart P ds.flatten) (hm : MetricsApart P ds.flatten) :
    LabOk (Kd.metric P) (groups P (Kd.metric P) ds.flatten) (fun rh sh mh => (rh, sh, mh)) where
  scope := fun a b sh _ h1 h2 => by rw [groups_apart h a b sh h1 h2]
  item := fun a sh x b sh' y h1 h1' h2 h2' e => by
    have e' : sh = sh' := by
      obtain ⟨r, hr1, s, hs1, m, hm1, e1, e2⟩ := h1'
      obtain ⟨r', hr2, s', hs2, m', hm2, e3, e4⟩ := h2'
      rw [← e1, ← e3]
      refine hm r hr1 r' hr2 s hs1 s' hs2 m hm1 m' hm2 ?_
      rw [e1, e3]
      have e5 : m.name = x.1 := by rw [← e2]; rfl
      have e6 : m'.name = y.1 := by rw [← e4]; rfl
      rw [e5, e6]; exact e
    subst e'
    rw [groups_apart h a b sh h1 h2, e]

theorem grouped_of {β ι : Type} {P : Par} {K : Kd α β ι} {o : Ops α} (ho : OpsOk P K o) {perm : AMap Nat Nat → AMap Nat Nat}
    (hperm : ∀ m, (perm m).Perm m) {ds : List (List (ResourceG α))} {out : List (ResourceG α)} (hap : ScopesApart P ds.flatten)
    (h : collapseG P o perm (ds.map some) = some out) : Grouped P ds.flatten out := by
  obtain ⟨_, h2, h3, h4, h5⟩ := collapseG_ok ho hperm h
  refine ⟨h2, ?_, fun rh sh => ⟨?_, ?_⟩, h5 hap⟩
  · rw [h2]; exact nodup_eraseDups _
  · rintro ⟨r, hr', s, hs', e1, e2⟩
    have := (h3 r hr' s hs').1
    rw [e1, e2] at this
    exact this
  · rintro ⟨r, hr', s, hs', e1, e2⟩
    obtain ⟨r0, hr0, s0, hs0, e⟩ := h4 r hr' s hs'
    obtain ⟨r1, hr1, s1, hs1, e3, e4⟩ := (h3 r0 hr0 s0 hs0).1
    refine ⟨r0, hr0, s0, hs0, ?_, by rw [e, e2]⟩
    rw [← e3, ← e1]
    exact hap r1 hr1 r hr' s1 hs1 s hs' (by rw [e4, e])

/-! ## C33: no record is lost or invented -/

/-- **C33** for logs: for every non-empty list of payloads and every hash function the merged payload has exactly the log
records of the inputs, as a multiset; and if scopes of different resources do not collide, each one in its own group. -/
theorem C33_logs (P : Par) (perm : AMap Nat Nat → AMap Nat Nat) (hperm : ∀ m, (perm m).Perm m)
    (ds : List (List (ResourceG LogRecord))) (hne : ds ≠ []) :
    ∃ out, collapse P perm (ds.map .logs) = some (some (.logs out)) ∧
      (plainRecords out).Perm (plainRecords ds.flatten) ∧
      (ScopesApart P ds.flatten → (records P out).Perm (records P ds.flatten)) := by
  by_cases h2 : 2 ≤ ds.length
  · obtain ⟨out, h⟩ := plain_some P perm ds
    obtain ⟨h1, _⟩ := collapseG_ok (plain_ok P _) hperm h
    refine ⟨out, by rw [collapse_logs P perm h2, h]; rfl, ?_, fun hap => ?_⟩
    · have := h1 _ (labUnit _ _)
      rw [recs_plain_unit, recs_plain_unit] at this
      exact perm_of_map_inj (·.2) (fun _ => rfl) this
    · have := h1 _ (lab_plain hap)
      rw [recs_plain, recs_plain] at this
      exact perm_of_map_inj (fun x => (x.1.1, x.1.2, x.2)) (fun _ => rfl) this
  · match ds, hne, h2 with
    | [d], _, _ => exact ⟨d, rfl, by simp, fun _ => by simp⟩
    | a :: b :: l, _, h2 => simp at h2

/-- **C33** for traces. -/
theorem C33_traces (P : Par) (perm : AMap Nat Nat → AMap Nat Nat) (hperm : ∀ m, (perm m).Perm m)
    (ds : List (List (ResourceG Span))) (hne : ds ≠ []) :
    ∃ out, collapse P perm (ds.map .traces) = some (some (.traces out)) ∧
      (plainRecords out).Perm (plainRecords ds.flatten) ∧
      (ScopesApart P ds.flatten → (records P out).Perm (records P ds.flatten)) := by
  by_cases h2 : 2 ≤ ds.length
  · obtain ⟨out, h⟩ := plain_some P perm ds
    obtain ⟨h1, _⟩ := collapseG_ok (plain_ok P _) hperm h
    refine ⟨out, by rw [collapse_traces P perm h2, h]; rfl, ?_, fun hap => ?_⟩
    · have := h1 _ (labUnit _ _)
      rw [recs_plain_unit, recs_plain_unit] at this
      exact perm_of_map_inj (·.2) (fun _ => rfl) this
    · have := h1 _ (lab_plain hap)
      rw [recs_plain, recs_plain] at this
      exact perm_of_map_inj (fun x => (x.1.1, x.1.2, x.2)) (fun _ => rfl) this
  · match ds, hne, h2 with
    | [d], _, _ => exact ⟨d, rfl, by simp, fun _ => by simp⟩
    | a :: b :: l, _, h2 => simp at h2

/-- **C33** for metrics: whenever the merge does not panic (C35), the merged payload has exactly the data points of the
inputs with their kinds; and if scopes of different resources and metrics of different scopes do not collide, each one under
its own resource, scope and metric. -/
theorem C33_metrics (P : Par) (perm : AMap Nat Nat → AMap Nat Nat) (hperm : ∀ m, (perm m).Perm m)
    (ds : List (List (ResourceG Metric))) (hne : ds ≠ []) (res : Option Data) (hres : collapse P perm (ds.map .metrics) = some res) :
    ∃ out, res = some (.metrics out) ∧
      (plainPoints out).Perm (plainPoints ds.flatten) ∧
      (ScopesApart P ds.flatten → MetricsApart P ds.flatten → (points P out).Perm (points P ds.flatten)) := by
  by_cases h2 : 2 ≤ ds.length
  · rw [collapse_metrics P perm h2, Option.map_eq_some_iff] at hres
    obtain ⟨out, h, e⟩ := hres
    obtain ⟨h1, _⟩ := collapseG_ok (metric_ok P) hperm h
    refine ⟨out, e.symm, ?_, fun hap hmap => ?_⟩
    · have := h1 _ (labUnit _ _)
      rw [recs_metric_unit, recs_metric_unit] at this
      exact perm_of_map_inj (·.2) (fun _ => rfl) this
    · have := h1 _ (lab_metric hap hmap)
      rw [recs_metric, recs_metric] at this
      exact perm_of_map_inj (fun x => (x.1.1, x.1.2.1, x.1.2.2, x.2)) (fun _ => rfl) this
  · match ds, hne, h2 with
    | [d], _, _ =>
      have : some (some (Data.metrics d)) = some res := hres
      exact ⟨d, by simpa using this.symm, by simp, fun _ _ => by simp⟩
    | a :: b :: l, _, h2 => simp at h2

/-! ## C34: one group per resource and scope -/

/-- **C34** for logs: two or more payloads are merged into one resource per group, in the order of first occurrence, with
the scopes of the inputs, each once. -/
theorem C34_logs (P : Par) (perm : AMap Nat Nat → AMap Nat Nat) (hperm : ∀ m, (perm m).Perm m)
    (ds : List (List (ResourceG LogRecord))) (h2 : 2 ≤ ds.length) (hap : ScopesApart P ds.flatten) :
    ∃ out, collapse P perm (ds.map .logs) = some (some (.logs out)) ∧ Grouped P ds.flatten out := by
  obtain ⟨out, h⟩ := plain_some P perm ds
  exact ⟨out, by rw [collapse_logs P perm h2, h]; rfl, grouped_of (plain_ok P _) hperm hap h⟩

/-- **C34** for traces. -/
theorem C34_traces (P : Par) (perm : AMap Nat Nat → AMap Nat Nat) (hperm : ∀ m, (perm m).Perm m)
    (ds : List (List (ResourceG Span))) (h2 : 2 ≤ ds.length) (hap : ScopesApart P ds.flatten) :
    ∃ out, collapse P perm (ds.map .traces) = some (some (.traces out)) ∧ Grouped P ds.flatten out := by
  obtain ⟨out, h⟩ := plain_some P perm ds
  exact ⟨out, by rw [collapse_traces P perm h2, h]; rfl, grouped_of (plain_ok P _) hperm hap h⟩

/-- **C34** for metrics, whenever the merge does not panic. -/
theorem C34_metrics (P : Par) (perm : AMap Nat Nat → AMap Nat Nat) (hperm : ∀ m, (perm m).Perm m)
    (ds : List (List (ResourceG Metric))) (h2 : 2 ≤ ds.length) (hap : ScopesApart P ds.flatten) (out : List (ResourceG Metric))
    (h : collapse P perm (ds.map .metrics) = some (some (.metrics out))) : Grouped P ds.flatten out := by
  rw [collapse_metrics P perm h2, Option.map_eq_some_iff] at h
  obtain ⟨out', h, e⟩ := h
  cases e
  exact grouped_of (metric_ok P) hperm hap h

/-- The result does not depend on the iteration order of the map of resources. -/
theorem C34_order_irrelevant (P : Par) (p q : AMap Nat Nat → AMap Nat Nat) (hp : ∀ m, (p m).Perm m) (hq : ∀ m, (q m).Perm m)
    (ts : List Data) : collapse P p ts = collapse P q ts := by
  have gen : ∀ {α β ι : Type} {K : Kd α β ι} {o : Ops α} (_ : OpsOk P K o) (l : List (Option (List (ResourceG α)))),
      collapseG P o p l = collapseG P o q l := by
    intro α β ι K o ho l
    unfold collapseG
    cases hl : l.mapM id with
    | none => rfl
    | some rs =>
      simp only
      cases ha : addAll P o rs.flatten {} with
      | none => rfl
      | some st =>
        obtain ⟨q1, _⟩ := addAll_ok ho (labUnit K (groups P K rs.flatten)) rs.flatten [] {} st (inv_empty _ _ _) (groups_all _ _ _) rfl ha
        simp only [Option.map_some]
        rw [result_eq q1.inv (hp _), result_eq q1.inv (hq _)]
  match ts with
  | [] => rfl
  | [d] => rfl
  | d :: e :: l =>
    cases d with
    | none => rfl
    | logs rs => simp only [collapse]; rw [gen (plain_ok P _)]
    | traces rs => simp only [collapse]; rw [gen (plain_ok P _)]
    | metrics rs => simp only [collapse]; rw [gen (metric_ok P)]

/-! ## C35: no panic -/

/-- **C35**, partial: merging logs or traces never panics, and merging metrics does not if metrics in the same group have the
same kind (missing: metrics of different kinds with the same name, which do panic: `C35_refuted`). -/
theorem C35_no_panic_partial (P : Par) (perm : AMap Nat Nat → AMap Nat Nat) :
    (∀ ds : List (List (ResourceG LogRecord)), collapse P perm (ds.map .logs) ≠ none) ∧
    (∀ ds : List (List (ResourceG Span)), collapse P perm (ds.map .traces) ≠ none) ∧
    (∀ ds : List (List (ResourceG Metric)), SameKinds P ds.flatten → collapse P perm (ds.map .metrics) ≠ none) := by
  refine ⟨fun ds => ?_, fun ds => ?_, fun ds hk => ?_⟩
  · by_cases h2 : 2 ≤ ds.length
    · obtain ⟨out, h⟩ := plain_some P perm ds
      rw [collapse_logs P perm h2, h]; simp
    · match ds, h2 with
      | [], _ => simp [collapse]
      | [d], _ => simp [collapse]
      | a :: b :: l, h2 => simp at h2
  · by_cases h2 : 2 ≤ ds.length
    · obtain ⟨out, h⟩ := plain_some P perm ds
      rw [collapse_traces P perm h2, h]; simp
    · match ds, h2 with
      | [], _ => simp [collapse]
      | [d], _ => simp [collapse]
      | a :: b :: l, h2 => simp at h2
  · by_cases h2 : 2 ≤ ds.length
    · obtain ⟨out, h⟩ := metrics_some hk perm
      rw [collapse_metrics P perm h2, h]; simp
    · match ds, h2 with
      | [], _ => simp [collapse]
      | [d], _ => simp [collapse]
      | a :: b :: l, h2 => simp at h2

/-- One metric, in a scope, in a resource. -/
def single (m : Metric) (r : Option Resource) (s : Option InstrScope) (u v : Bytes) : List (ResourceG Metric) :=
  [{ schema := u, resource := r, scopes := [{ schema := v, scope := s, items := [m] }] }]

/-- **C35**, exactly, for two metrics with the same name in the same scope of the same resource: the merge panics if and only
if the second has data and the first does not have data of the same kind. For every hash function. -/
theorem C35_two_metrics (P : Par) (perm : AMap Nat Nat → AMap Nat Nat) (a b : Metric) (hn : a.name = b.name)
    (r : Option Resource) (s : Option InstrScope) (u v : Bytes) :
    collapse P perm [.metrics (single a r s u v), .metrics (single b r s u v)] = none ↔
      b.data ≠ none ∧ Metric.kind a ≠ Metric.kind b := by
  obtain ⟨an, ar, ad⟩ := a
  obtain ⟨bn, br, bd⟩ := b
  simp only at hn
  subst hn
  cases bd with
  | none => simp [collapse, collapseG, Data.metrics?, single, addAll, addResource, AMap.get, regScopes, addScopes, AMap.set, metricOps,
      regMetrics, addMetrics, getMetric, mergeMetric]
  | some d =>
    cases ad with
    | none => simp [collapse, collapseG, Data.metrics?, single, addAll, addResource, AMap.get, regScopes, addScopes, AMap.set, metricOps,
        regMetrics, addMetrics, getMetric, mergeMetric, Metric.kind]
    | some d' =>
      by_cases hk : d'.kind = d.kind
      · simp [collapse, collapseG, Data.metrics?, single, addAll, addResource, AMap.get, regScopes, addScopes, AMap.set, metricOps,
          regMetrics, addMetrics, getMetric, mergeMetric, Metric.kind, hk]
      · simp [collapse, collapseG, Data.metrics?, single, addAll, addResource, AMap.get, regScopes, addScopes, AMap.set, metricOps,
          regMetrics, addMetrics, getMetric, mergeMetric, Metric.kind, hk]

/-- **C35** is false of the code: a gauge and a sum with the same name panic, for every hash function. -/
theorem C35_refuted (P : Par) (perm : AMap Nat Nat → AMap Nat Nat) : ∃ ds : List (List (ResourceG Metric)),
    collapse P perm (ds.map .metrics) = none :=
  ⟨[single { name := [99], data := some { kind := .gauge, points := [] } } none none [] [],
    single { name := [99], data := some { kind := .sum, points := [] } } none none [] []],
    (C35_two_metrics P perm { name := [99], data := some { kind := .gauge, points := [] } }
      { name := [99], data := some { kind := .sum, points := [] } } rfl none none [] []).2 ⟨by simp, by simp [Metric.kind]⟩⟩

/-- Payloads of different signals, or an empty payload after another one, panic as well. -/
theorem C35_mixed_panics (P : Par) (perm : AMap Nat Nat → AMap Nat Nat) (a : List (ResourceG Metric)) (d : Data) (l : List Data)
    (hd : Data.metrics? d = none) : collapse P perm (.metrics a :: d :: l) = none := by
  have : (List.map Data.metrics? (.metrics a :: d :: l)).mapM id = none := by
    rw [List.map_cons, List.map_cons, hd, List.mapM_cons, List.mapM_cons]; rfl
  simp only [collapse, collapseG]
  rw [this]; rfl

/-! ## C36: scopes are kept apart -/

/-- **C36** exactly, for a perfect hash function: two scopes of a resource are merged if and only if the *concatenations* of
schema, name, version and attributes are the same. -/
theorem C36_exact (P : Par) (hinj : Function.Injective P.H) (rh : Nat) (u v : Bytes) (s t : InstrScope) :
    hashScope P rh u (some s) = hashScope P rh v (some t) ↔
      u ++ (s.name ++ s.version ++ s.attrs.flatMap P.marshal) = v ++ (t.name ++ t.version ++ t.attrs.flatMap P.marshal) := by
  unfold hashScope
  constructor
  · intro h
    have := hinj h
    simpa [List.append_assoc] using this
  · intro h
    simp only [List.append_assoc] at h ⊢
    rw [h]

/-- **C36**, partial: a perfect hash function keeps scopes apart whose schemas are equally long, whose names are equally long
and that have no attributes (missing: all other scopes, for which it is false: `C36_refuted`). -/
theorem C36_apart_partial (P : Par) (hinj : Function.Injective P.H) (rh : Nat) (u v : Bytes) (s t : InstrScope)
    (hl : u.length = v.length) (hn : s.name.length = t.name.length) (hs : s.attrs = []) (ht : t.attrs = [])
    (h : hashScope P rh u (some s) = hashScope P rh v (some t)) : u = v ∧ s = t := by
  rw [C36_exact P hinj, hs, ht] at h
  obtain ⟨h1, h2⟩ := List.append_inj h hl
  simp only [List.flatMap_nil, List.append_nil] at h2
  obtain ⟨h3, h4⟩ := List.append_inj h2 hn
  refine ⟨h1, ?_⟩
  obtain ⟨n1, v1, a1⟩ := s
  obtain ⟨n2, v2, a2⟩ := t
  simp_all

/-- **C36** is false of the code, for every hash function: the log records of the scopes `ab`, version `c`, and `a`, version
`bc`, end up in one scope. -/
theorem C36_refuted (P : Par) (perm : AMap Nat Nat → AMap Nat Nat) (hperm : ∀ m, (perm m).Perm m) (x y : LogRecord) :
    ∃ s t : InstrScope, s ≠ t ∧
      collapse P perm [.logs [{ scopes := [{ scope := some s, items := [x] }] }], .logs [{ scopes := [{ scope := some t, items := [y] }] }]] =
        some (some (.logs [{ scopes := [{ scope := some s, items := [x, y] }] }])) := by
  refine ⟨{ name := [97, 98], version := [99] }, { name := [97], version := [98, 99] }, by decide, ?_⟩
  rw [C34_order_irrelevant P perm id hperm (fun m => List.Perm.refl m)]
  simp [collapse, collapseG, Data.logs?, addAll, addResource, AMap.get, regScopes, addScopes, AMap.set, plainOps, modScope, hashScope,
    result]

/-- A different order of the same attributes, in contrast, does keep resources apart: merging needs the same encoding. -/
theorem C36_resources (P : Par) (hinj : Function.Injective P.H) (u v : Bytes) (r t : Resource) :
    hashResource P u (some r) = hashResource P v (some t) ↔ u ++ r.attrs.flatMap P.marshal = v ++ t.attrs.flatMap P.marshal := by
  unfold hashResource
  exact ⟨fun h => hinj h, fun h => by rw [h]⟩

/-- **C36**: a scope is looked up under its own resource only, and a metric under its own scope, name and all: with a perfect hash
function (64-bit hashes of the enclosing groups) nothing is merged across resources or scopes. -/
theorem C36_nested (P : Par) (hinj : Function.Injective P.H) {g g' : Nat} (hg : g < 2 ^ 64) (hg' : g' < 2 ^ 64) :
    (∀ u v s t, hashScope P g u s = hashScope P g' v t → g = g') ∧
    (∀ x y, hashMetric P g x = hashMetric P g' y ↔ g = g' ∧ x = y) := by
  constructor
  · intro u v s t h
    have h := hinj h
    rw [List.append_assoc, List.append_assoc] at h
    exact u64tob_inj hg hg' (List.append_inj h rfl).1
  · intro x y
    refine ⟨fun h => ?_, fun ⟨h1, h2⟩ => by rw [h1, h2]⟩
    have h := List.append_inj (hinj h) rfl
    exact ⟨u64tob_inj hg hg' h.1, h.2⟩

/-- **C36**: so the conditions of C33 hold then. -/
theorem C36_groups_apart (P : Par) (hinj : Function.Injective P.H) (rs : List (ResourceG Metric))
    (hr64 : ∀ r ∈ rs, hr P r < 2 ^ 64) (hs64 : ∀ r ∈ rs, ∀ s ∈ r.scopes, hs P r s < 2 ^ 64) :
    ScopesApart P rs ∧ MetricsApart P rs := by
  constructor
  · intro r h r' h' s _ s' _ e
    exact (C36_nested P hinj (hr64 r h) (hr64 r' h')).1 _ _ _ _ e
  · intro r h r' h' s h1 s' h1' m _ m' _ e
    exact (((C36_nested P hinj (hs64 r h s h1) (hs64 r' h' s' h1')).2 _ _).1 e).1

/-! ### The hypotheses hold of a concrete case -/

/-- A perfect hash function. -/
def perfect : Par := ⟨fun b => b.foldr (fun x n => x.toNat + 1 + 257 * n) 0, fun kv => kv.key⟩

theorem perfect_inj : Function.Injective perfect.H := by
  intro a
  induction a with
  | nil => intro b h; cases b with | nil => rfl | cons x b => simp [perfect] at h; omega
  | cons x a ih =>
    intro b h
    cases b with
    | nil => simp [perfect] at h
    | cons y b =>
      have hx := x.toNat_lt
      have hy := y.toNat_lt
      have h' : x.toNat + 1 + 257 * perfect.H a = y.toNat + 1 + 257 * perfect.H b := h
      have e1 : x.toNat = y.toNat := by omega
      have e2 : perfect.H a = perfect.H b := by omega
      rw [UInt8.toNat_inj.1 e1, ih e2]

private def someMetrics : List (ResourceG Metric) :=
  [{ scopes := [{ items := [{ name := [97], data := none }] }] }, { schema := [1], scopes := [{ items := [{ name := [97], data := none }] }] }]

/-- Two resources with a metric of the same name meet the conditions of `C36_groups_apart`. -/
example : ScopesApart perfect someMetrics ∧ MetricsApart perfect someMetrics :=
  C36_groups_apart perfect perfect_inj someMetrics (by decide +kernel) (by decide +kernel)


/-- A toy hash and encoding. -/
def toy : Par := ⟨fun b => (b.foldl (fun n x => n * 31 + x.toNat) 7) % 18446744073709551557, fun kv => kv.key⟩

private def lr (n : Nat) : LogRecord := { ts := n }
private def toyLogs : List (List (ResourceG LogRecord)) :=
  [[{ scopes := [{ scope := some { name := [97] }, items := [lr 1, lr 2] }] }],
   [{ schema := [1], scopes := [{ scope := some { name := [97] }, items := [lr 3] }] }],
   [{ scopes := [{ scope := some { name := [98] }, items := [lr 4] }, { scope := some { name := [97] }, items := [lr 1] }] }]]

private instance (rs : List (ResourceG LogRecord)) : Decidable (ScopesApart toy rs) := by unfold ScopesApart; infer_instance
private instance (rs : List (ResourceG Metric)) : Decidable (ScopesApart toy rs) := by unfold ScopesApart; infer_instance
private instance (rs : List (ResourceG Metric)) : Decidable (MetricsApart toy rs) := by unfold MetricsApart; infer_instance
private instance (rs : List (ResourceG Metric)) : Decidable (SameKinds toy rs) := by unfold SameKinds; infer_instance

example : ScopesApart toy toyLogs.flatten ∧ 2 ≤ toyLogs.length ∧ ∀ r ∈ toyLogs.flatten, (r.scopes.map (hs toy r)).Nodup := by
  decide +kernel

/-- Four groups from four scopes: the record of the third payload joins the first resource and scope. -/
example : collapse toy id (toyLogs.map .logs) = some (some (.logs
    [{ scopes := [{ scope := some { name := [97] }, items := [lr 1, lr 2, lr 1] }, { scope := some { name := [98] }, items := [lr 4] }] },
     { schema := [1], scopes := [{ scope := some { name := [97] }, items := [lr 3] }] }])) := by decide +kernel

private def pt (n : Nat) : DataPoint := { ts := n }
private def toyMetrics : List (List (ResourceG Metric)) :=
  [single { name := [97], data := some { kind := .sum, points := [pt 1] } } none none [] [],
   single { name := [98], data := some { kind := .gauge, points := [pt 2] } } none none [] [],
   single { name := [97], data := some { kind := .sum, points := [pt 3, pt 1] } } none none [] []]

example : ScopesApart toy toyMetrics.flatten ∧ MetricsApart toy toyMetrics.flatten ∧ SameKinds toy toyMetrics.flatten := by decide +kernel

example : collapse toy id (toyMetrics.map .metrics) = some (some (.metrics [{ scopes := [{ items :=
    [{ name := [97], data := some { kind := .sum, points := [pt 1, pt 3, pt 1] } },
     { name := [98], data := some { kind := .gauge, points := [pt 2] } }] }] }])) := by decide +kernel

end Verif.Dt
