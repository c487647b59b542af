import Verif.Props.Flat
/-!
# C62 exactly: values of points without value, and when appending ends the process
-/
namespace Verif.Fl
variable {σ : Type}

/-- Every data point of a payload, together with the points before it in the same metric: the point itself is the last of its list. -/
def histories (data : List (ResourceG Metric)) : List (List Fact) :=
  data.flatMap fun r => r.scopes.flatMap fun s => s.items.flatMap fun x =>
    let ps := (x.data.map Points.all).getD []
    (List.range ps.length).map fun i => (ps.take (i + 1)).map fun p =>
      { resource := (r.resource.map (·.attrs)).getD [], scope := (s.scope.map (·.attrs)).getD [], metric := x, point := p }

/-- The value of the last point of a list that has one. -/
def lastValue (float : Int → Nat) (fs : List Fact) : Option Nat := fs.reverse.findSome? (·.number float)

/-! ## Values -/

theorem finish_rows {P : Par σ} {a : Attr} {kvs : List KeyValue} {m m' : M σ} {mx mx' : Row} (h : finish P a kvs m mx = some (m', mx')) :
    m'.rows = m.rows ++ [mx'] ∧ mx'.gauge = mx.gauge ∧ mx'.exemplars = mx.exemplars := by
  unfold finish at h
  cases h0 : attrOf P a mx.name kvs m.st with
  | none => simp [h0] at h
  | some q =>
    simp only [h0, Option.some.injEq, Prod.mk.injEq] at h
    obtain ⟨rfl, rfl⟩ := h
    exact ⟨rfl, rfl, rfl⟩

/-- The values a loop writes. -/
def carry {α : Type} (val : α → Option Nat) : Option Nat → List α → List (Option Nat)
  | _, [] => []
  | g, p :: ps => (val p <|> g) :: carry val (val p <|> g) ps

theorem loop_gauge {α : Type} {P : Par σ} {a : Attr} {fill : Row → α → Row} {attrs : α → List KeyValue} {val : α → Option Nat}
    (hf : ∀ mx p, (fill mx p).gauge = (val p <|> mx.gauge)) (l : List α) {m m' : M σ} {mx : Row}
    (h : loop P a fill attrs l m mx = some m') : m'.rows.map (·.gauge) = m.rows.map (·.gauge) ++ carry val mx.gauge l := by
  induction l generalizing m mx with
  | nil => simp only [loop, Option.some.injEq] at h; subst h; simp [carry]
  | cons p ps ih =>
    simp only [loop] at h
    cases h0 : finish P a (attrs p) m (fill mx p) with
    | none => simp only [h0] at h; exact (nomatch h)
    | some q =>
      simp only [h0] at h
      obtain ⟨h1, h2, -⟩ := finish_rows h0
      rw [ih h, h1, h2, hf]
      simp [carry, h2, hf]

theorem carry_eq {α : Type} (val : α → Option Nat) (l : List α) (g : Option Nat) :
    carry val g l = (List.range l.length).map fun i => ((l.take (i + 1)).reverse.findSome? val <|> g) := by
  induction l generalizing g with
  | nil => rfl
  | cons p ps ih =>
    rw [carry, ih, List.length_cons, List.range_succ_eq_map, List.map_cons, List.map_map]
    congr 1
    · simp
    · apply List.map_congr_left
      intro i _
      simp only [Function.comp_apply, Nat.succ_eq_add_one, List.take_succ_cons, List.reverse_cons, List.findSome?_append]
      cases ((ps.take (i + 1)).reverse.findSome? val) with
      | none => simp
      | some v => simp

/-- The values of the rows of one metric. -/
def gaugesOf (float : Int → Nat) (res sc : List KeyValue) (x : Metric) : List (Option Nat) :=
  (List.range ((x.data.map Points.all).getD []).length).map fun i => lastValue float ((((x.data.map Points.all).getD []).take (i + 1)).map fun p =>
    { resource := res, scope := sc, metric := x, point := p })

theorem metric_gauge {P : Par σ} {a : Attr} {x : Metric} {m m' : M σ} (res sc : List KeyValue) (h : metric P a x m = some m') :
    m'.rows.map (·.gauge) = m.rows.map (·.gauge) ++ gaugesOf P.float res sc x := by
  have key : ∀ (l : List (NPoint ⊕ HPoint)) , carry (fun p => Fact.number P.float ⟨res, sc, x, p⟩) none l =
      (List.range l.length).map fun i => lastValue P.float ((l.take (i + 1)).map fun p => ⟨res, sc, x, p⟩) := by
    intro l
    rw [carry_eq]
    apply List.map_congr_left
    intro i _
    unfold lastValue
    rw [← List.map_reverse, List.findSome?_map]
    simp [Function.comp_def]
  have cm : ∀ {α : Type} (f : α → NPoint ⊕ HPoint) (v : (NPoint ⊕ HPoint) → Option Nat) (l : List α) (g : Option Nat),
      carry v g (l.map f) = carry (fun p => v (f p)) g l := by
    intro α f v l
    induction l with
    | nil => intro g; rfl
    | cons p ps ih => intro g; simp only [List.map_cons, carry]; rw [ih]
  unfold metric at h
  unfold gaugesOf
  cases hm : x.data with
  | none => simp only [hm, Option.some.injEq] at h; subst h; simp
  | some d =>
    simp only [Option.map_some, Option.getD_some]
    rw [← key]
    cases d with
    | gauge l =>
      simp only [hm] at h
      rw [numbers_eq] at h
      rw [loop_gauge (val := fun p => Fact.number P.float ⟨res, sc, x, .inl p⟩) _ l h, Points.all, cm]
      intro mx p
      cases hv : p.value with
      | none => simp [fillNum, hv, Fact.number]
      | some v => cases v <;> simp [fillNum, hv, Fact.number]
    | sum t mono l =>
      simp only [hm] at h
      rw [numbers_eq] at h
      rw [loop_gauge (val := fun p => Fact.number P.float ⟨res, sc, x, .inl p⟩) _ l h, Points.all, cm]
      intro mx p
      cases hv : p.value with
      | none => simp [fillNum, hv, Fact.number]
      | some v => cases v <;> simp [fillNum, hv, Fact.number]
    | hist t l =>
      simp only [hm] at h
      rw [hists_eq] at h
      rw [loop_gauge (val := fun p => Fact.number P.float ⟨res, sc, x, .inr p⟩) _ l h, Points.all, cm]
      intro mx p; simp [Fact.number]
    | expHist t l =>
      simp only [hm] at h
      rw [expHists_eq] at h
      rw [loop_gauge (val := fun p => Fact.number P.float ⟨res, sc, x, .inr p⟩) _ l h, Points.all, cm]
      intro mx p; simp [Fact.number]
    | summary l =>
      simp only [hm] at h
      rw [summaries_eq] at h
      rw [loop_gauge (val := fun p => Fact.number P.float ⟨res, sc, x, .inr p⟩) _ l h, Points.all, cm]
      intro mx p; simp [Fact.number]

theorem metricLoop_gauge {P : Par σ} {a : Attr} (res sc : List KeyValue) (l : List Metric) {m m' : M σ} (h : metricLoop P a l m = some m') :
    m'.rows.map (·.gauge) = m.rows.map (·.gauge) ++ l.flatMap (gaugesOf P.float res sc) := by
  induction l generalizing m with
  | nil => simp only [metricLoop, Option.some.injEq] at h; subst h; simp
  | cons x l ih =>
    simp only [metricLoop] at h
    cases h0 : metric P a x m with
    | none => simp only [h0] at h; exact (nomatch h)
    | some m1 =>
      simp only [h0] at h
      rw [ih h, metric_gauge res sc h0]
      simp

theorem scopeLoop_gauge {P : Par σ} (res : List KeyValue) (l : List (ScopeG Metric)) {a a' : Attr} {m m' : M σ} (h : scopeLoop P a l m = some (m', a')) :
    m'.rows.map (·.gauge) = m.rows.map (·.gauge) ++ l.flatMap fun s => s.items.flatMap (gaugesOf P.float res ((s.scope.map (·.attrs)).getD [])) := by
  induction l generalizing m a with
  | nil => simp only [scopeLoop, Option.some.injEq, Prod.mk.injEq] at h; obtain ⟨rfl, -⟩ := h; simp
  | cons s l ih =>
    simp only [scopeLoop] at h
    cases h0 : setScope P a ((s.scope.map (·.attrs)).getD []) m.st with
    | none => simp only [h0] at h; exact (nomatch h)
    | some q =>
      obtain ⟨st, a1⟩ := q
      simp only [h0] at h
      cases h1 : metricLoop P a1 s.items { m with st := st } with
      | none => simp only [h1] at h; exact (nomatch h)
      | some m1 =>
        simp only [h1] at h
        rw [ih h, metricLoop_gauge res ((s.scope.map (·.attrs)).getD []) _ h1]
        simp

theorem resourceLoop_gauge {P : Par σ} (l : List (ResourceG Metric)) {a : Attr} {m m' : M σ} (h : resourceLoop P a l m = some m') :
    m'.rows.map (·.gauge) = m.rows.map (·.gauge) ++ (histories l).map (lastValue P.float) := by
  induction l generalizing m a with
  | nil => simp only [resourceLoop, Option.some.injEq] at h; subst h; simp [histories]
  | cons r l ih =>
    simp only [resourceLoop] at h
    cases h0 : setResource P a ((r.resource.map (·.attrs)).getD []) m.st with
    | none => simp only [h0] at h; exact (nomatch h)
    | some q =>
      obtain ⟨st, a1⟩ := q
      simp only [h0] at h
      cases h1 : scopeLoop P a1 r.scopes { m with st := st } with
      | none => simp only [h1] at h; exact (nomatch h)
      | some q =>
        simp only [h1] at h
        rw [ih h, scopeLoop_gauge ((r.resource.map (·.attrs)).getD []) _ h1]
        simp only [histories, List.map_flatMap, List.flatMap_cons, List.map_append, List.append_assoc, List.map_map, Function.comp_def]
        rfl

theorem appendAll_gauge {P : Par σ} (ds : List (List (ResourceG Metric))) {m m' : M σ} (h : appendAll P ds m = some m') :
    m'.rows.map (·.gauge) = m.rows.map (·.gauge) ++ (ds.flatMap histories).map (lastValue P.float) := by
  induction ds generalizing m with
  | nil => simp only [appendAll, Option.some.injEq] at h; subst h; simp
  | cons d ds ih =>
    simp only [appendAll] at h
    cases h0 : append P d m with
    | none => simp only [h0] at h; exact (nomatch h)
    | some m1 =>
      simp only [h0] at h
      rw [ih h, resourceLoop_gauge _ h0]
      simp [List.map_flatMap]

/-- The last point of each history is the point itself. -/
theorem histories_last (data : List (ResourceG Metric)) : (histories data).map List.getLast? = (facts data).map some := by
  simp only [histories, facts, List.map_flatMap, List.map_map, Function.comp_def]
  congr 1; funext r; congr 1; funext s; congr 1; funext x
  generalize (x.data.map Points.all).getD [] = ps
  apply List.ext_getElem
  · simp
  · intro i h1 h2
    simp only [List.length_map, List.length_range] at h1
    simp only [List.getElem_map, List.getElem_range]
    rw [List.getLast?_map, List.getLast?_take]
    simp [h1]

/-- **C62**, exactly. However often metrics are appended: one row is added per data point, in order, with its own id; it says all there is
to say of the point, and its value is that of the last point of the same metric, up to and including this one, that has a value. -/
theorem C62_rows {D : Dict σ} {P : Par σ} (hD : D.Lawful) (ht : P.tr = D.tr) (ds : List (List (ResourceG Metric))) {m m' : M σ}
    (hg : D.Good m.st) (h : appendAll P ds m = some m') :
    ∃ new, m'.rows = m.rows ++ new ∧ List.Forall₂ Row.Describes new (ds.flatMap facts) ∧
      new.map (·.id) = (List.range' m.taken new.length).map P.ids ∧
      new.map (·.gauge) = (ds.flatMap histories).map (lastValue P.float) := by
  obtain ⟨new, h1, h2, h3, -⟩ := C62_rows_partial hD ht ds hg h
  refine ⟨new, h1, h2, h3, ?_⟩
  have := appendAll_gauge ds h
  rw [h1, List.map_append] at this
  exact List.append_cancel_left this

/-! ## Crashes -/

theorem addCols_some {P : Par σ} {kvs : List KeyValue} {st : σ} {b : Bm} {q : σ × Bm} (h : addCols P kvs st b = some q) :
    ∀ kv ∈ kvs, kv.value ≠ none := by
  induction kvs generalizing st b with
  | nil => simp
  | cons kv kvs ih =>
    simp only [addCols] at h
    cases hv : kv.value with
    | none => simp [hv] at h
    | some v =>
      have : ∀ k ∈ kvs, k.value ≠ none := by
        cases v with
        | other raw => simp only [hv] at h; exact ih h
        | str s =>
          simp only [hv] at h
          cases hq : P.tr st (kv.key ++ equal ++ s) with
          | none => simp only [hq] at h; exact (nomatch h)
          | some q => simp only [hq] at h; exact ih h
      intro k hk
      rcases List.mem_cons.1 hk with rfl | hk
      · rw [hv]; simp
      · exact this k hk

theorem finish_some {P : Par σ} {a : Attr} {kvs : List KeyValue} {m : M σ} {mx : Row} {q : M σ × Row} (h : finish P a kvs m mx = some q) :
    ∀ kv ∈ kvs, kv.value ≠ none := by
  unfold finish attrOf doCols at h
  cases h0 : addCols P kvs m.st [] with
  | none => simp [h0] at h
  | some q => exact addCols_some h0

theorem loop_some {α : Type} {P : Par σ} {a : Attr} {fill : Row → α → Row} {attrs : α → List KeyValue} (l : List α) {m m' : M σ} {mx : Row}
    (h : loop P a fill attrs l m mx = some m') : ∀ p ∈ l, ∀ kv ∈ attrs p, kv.value ≠ none := by
  induction l generalizing m mx with
  | nil => simp
  | cons p ps ih =>
    simp only [loop] at h
    cases h0 : finish P a (attrs p) m (fill mx p) with
    | none => simp only [h0] at h; exact (nomatch h)
    | some q =>
      simp only [h0] at h
      intro p' hp
      rcases List.mem_cons.1 hp with rfl | hp
      · exact finish_some h0
      · exact ih h p' hp

theorem metric_some {P : Par σ} {a : Attr} {x : Metric} {m m' : M σ} (h : metric P a x m = some m') :
    ∀ d, x.data = some d → ∀ p ∈ d.all, ∀ kv ∈ pointAttrs p, kv.value ≠ none := by
  intro d hd p hp kv hk
  unfold metric at h
  simp only [hd] at h
  cases d <;> simp only [numbers_eq, hists_eq, expHists_eq, summaries_eq] at h <;> simp only [Points.all, List.mem_map] at hp <;>
    obtain ⟨q, hq, rfl⟩ := hp <;> exact loop_some _ h q hq kv hk

theorem metricLoop_some {P : Par σ} {a : Attr} (l : List Metric) {m m' : M σ} (h : metricLoop P a l m = some m') :
    ∀ x ∈ l, ∀ d, x.data = some d → ∀ p ∈ d.all, ∀ kv ∈ pointAttrs p, kv.value ≠ none := by
  induction l generalizing m with
  | nil => simp
  | cons x l ih =>
    simp only [metricLoop] at h
    cases h0 : metric P a x m with
    | none => simp only [h0] at h; exact (nomatch h)
    | some m1 =>
      simp only [h0] at h
      intro y hy
      rcases List.mem_cons.1 hy with rfl | hy
      · exact metric_some h0
      · exact ih h y hy

theorem scopeLoop_some {P : Par σ} (l : List (ScopeG Metric)) {a a' : Attr} {m m' : M σ} (h : scopeLoop P a l m = some (m', a')) :
    ∀ s ∈ l, (∀ kv ∈ (s.scope.map (·.attrs)).getD [], kv.value ≠ none) ∧ ∀ x ∈ s.items, ∀ d, x.data = some d → ∀ p ∈ d.all,
      ∀ kv ∈ pointAttrs p, kv.value ≠ none := by
  induction l generalizing m a with
  | nil => simp
  | cons s l ih =>
    simp only [scopeLoop, setScope, doCols] at h
    cases h0 : addCols P ((s.scope.map (·.attrs)).getD []) m.st [] with
    | none => simp only [h0] at h; exact (nomatch h)
    | some q =>
      simp only [h0] at h
      cases h1 : metricLoop P { a with scope := (s.scope.map (·.attrs)).getD [], sb := q.2 } s.items { m with st := q.1 } with
      | none => simp only [h1] at h; exact (nomatch h)
      | some m1 =>
        simp only [h1] at h
        intro y hy
        rcases List.mem_cons.1 hy with rfl | hy
        · exact ⟨addCols_some h0, metricLoop_some _ h1⟩
        · exact ih h y hy

theorem sound_of_some {P : Par σ} {data : List (ResourceG Metric)} {m m' : M σ} (h : append P data m = some m') : Sound data := by
  unfold append at h
  generalize ({} : Attr) = a at h
  unfold Sound
  induction data generalizing a m with
  | nil => simp
  | cons r l ih =>
    simp only [resourceLoop, setResource, doCols] at h
    cases h0 : addCols P ((r.resource.map (·.attrs)).getD []) m.st [] with
    | none => simp only [h0] at h; exact (nomatch h)
    | some q =>
      simp only [h0] at h
      cases h1 : scopeLoop P { a with resource := (r.resource.map (·.attrs)).getD [], rb := q.2 } r.scopes { m with st := q.1 } with
      | none => simp only [h1] at h; exact (nomatch h)
      | some q' =>
        simp only [h1] at h
        intro y hy
        rcases List.mem_cons.1 hy with rfl | hy
        · exact ⟨addCols_some h0, scopeLoop_some _ h1⟩
        · exact ih _ h y hy

/-- **C62**, exactly: if the dictionary works, appending ends the process exactly if some attribute of a resource, scope or data point
has no value. -/
theorem C62_crash_iff {P : Par σ} (hP : ∀ st k, P.tr st k ≠ none) (data : List (ResourceG Metric)) (m : M σ) :
    append P data m = none ↔ ¬ Sound data := by
  constructor
  · intro h hs
    exact C62_total_partial hP data hs m h
  · intro hs
    cases h : append P data m with
    | none => rfl
    | some m' => exact absurd (sound_of_some h) hs

/-- A gauge with a value, none, another value, none. -/
example : (histories toyData).map (lastValue toyPar.float) = [some 7, some 7, some 9, none, some 8] := by decide +kernel
/-- Both sides of `C62_crash_iff` occur. -/
example : Sound toyData ∧ ¬ Sound [{ resource := some { attrs := [{ key := [97], value := none }] }, scopes := [] }] := by
  constructor
  · exact sound_of_some (P := toyPar) (m := { st := [] }) (Option.some_get toy_run).symm
  · intro h
    exact (h _ List.mem_cons_self).1 _ List.mem_cons_self rfl

/-- A dictionary that always works. -/
example : ∀ st k, (Par.mk (fun (n : Nat) (_ : Bytes) => some (n + 1, n)) id List.length Int.toNat).tr st k ≠ none := by intro st k h; exact (nomatch h)

/-- **C63**: which positions coincide, in all of uint64: ids agree modulo 2^44 and columns modulo 2^20. -/
theorem C63_pos (r c r' c' : Nat) : pos r c = pos r' c' ↔ r % 2 ^ 44 = r' % 2 ^ 44 ∧ c % 2 ^ 20 = c' % 2 ^ 20 := by
  unfold pos
  rw [show Bt.shardWidth = 2 ^ 20 from rfl]
  omega

end Verif.Fl
