import Verif.Lemmas.WireExport2
/-!
# Exported data: metrics, logs, spans, and the request
-/
namespace Verif.Ex
open Pb (Val otlp marshal unmarshal encFields Schema Field Fits FieldsOk Ord valuesOf InOrder Utf8)
open Rq (vals entries vals_entries mem_entries getNum getTxt numVal txtVal bits32 int32 getNum_of getTxt_of int32_bits bits32_lt)

/-! ## Metrics -/

/-- The data of a metric, when it is of kind `k`. -/
def ofKind (k : MKind) (o : Option MData) : List Val := ((o.filter fun d => d.kind = k).map ofMData).toList

theorem ofKind_none (k : MKind) : ofKind k none = [] := rfl
theorem ofKind_some (k : MKind) (x : MData) : ofKind k (some x) = if x.kind = k then [ofMData x] else [] := by
  unfold ofKind
  by_cases h : x.kind = k <;> simp [Option.filter, h]

theorem ofMetric_eq (m : Metric) : ofMetric m = build 13 [(1, txtVal m.name), (5, ofKind .gauge m.data), (7, ofKind .sum m.data), (9, ofKind .histogram m.data),
    (10, ofKind .exponentialHistogram m.data), (11, ofKind .summary m.data)] m.rest := rfl

theorem kind_good {d : Nat} (hd : d + 4 ≤ 10000) {o : Option MData} (h : ∀ x, o = some x → MDataOk Short d x) (k : MKind) {f : Field} (hf : f ∈ otlp 13)
    (hn : f.num = (dataType k).2) : Good otlp (d + 4) f (ofKind k o) := by
  refine put_msg (n := (dataType k).2) (k := (dataType k).1) (c := .oneof 0) (by cases k <;> decide) (by decide) (fun v hv => ?_) hf hn
  rw [Option.map_eq_some_iff] at hv
  obtain ⟨x, hx, rfl⟩ := hv
  rw [Option.filter_eq_some_iff] at hx
  have hk : x.kind = k := by simpa using hx.2
  subst hk
  exact mdata_fits hd (h x hx.1)

theorem kind_one {k k' : MKind} (hk : k ≠ k') (o : Option MData) : ofKind k o = [] ∨ ofKind k' o = [] := by
  cases o with
  | none => exact .inl rfl
  | some x =>
    rw [ofKind_some, ofKind_some]
    by_cases h : x.kind = k
    · right; rw [if_neg (by rw [h]; exact hk)]
    · left; rw [if_neg h]

theorem metric_fits {d : Nat} (hd : d + 5 ≤ 10000) {m : Metric} (h : MetricOk Short d m) : Fits otlp (d + 5) (.msg 13) (ofMetric m) := by
  obtain ⟨h1, h2, h3⟩ := h
  obtain ⟨fs, u, hr, e1, -, -⟩ := restVal_of hd h2
  rw [ofMetric_eq]
  unfold build
  rw [hr]
  refine fits_asm Pb.otlp_proper e1 (fun f hf vs hv => ?_) (fun f hf g hg o hfg hc hc' => ?_)
  · have hm := these_mem hv
    have hp : f.num = 1 ∧ vs = txtVal m.name ∨ ∃ k, f.num = (dataType k).2 ∧ vs = ofKind k m.data := by
      simp only [List.mem_cons, List.not_mem_nil, or_false, Prod.mk.injEq] at hm
      rcases hm with h | h | h | h | h | h
      · exact .inl h
      · exact .inr ⟨.gauge, h⟩
      · exact .inr ⟨.sum, h⟩
      · exact .inr ⟨.histogram, h⟩
      · exact .inr ⟨.exponentialHistogram, h⟩
      · exact .inr ⟨.summary, h⟩
    rcases hp with ⟨hn, rfl⟩ | ⟨k, hn, rfl⟩
    · exact put_txt (n := 1) (by decide) h1 hf hn
    · exact kind_good (by omega) h3 k hf hn
  · have key : ∀ f ∈ otlp 13, ∀ o, f.card = .oneof o → ∃ k, f.num = (dataType k).2 := by
      intro f hf o hc
      have : f.num = 5 ∨ f.num = 7 ∨ f.num = 9 ∨ f.num = 10 ∨ f.num = 11 := by
        have hall : ∀ f ∈ otlp 13, (match f.card with | .oneof _ => true | _ => false) = true → f.num = 5 ∨ f.num = 7 ∨ f.num = 9 ∨ f.num = 10 ∨ f.num = 11 := by decide
        exact hall f hf (by rw [hc])
      rcases this with h | h | h | h | h
      · exact ⟨.gauge, h⟩
      · exact ⟨.sum, h⟩
      · exact ⟨.histogram, h⟩
      · exact ⟨.exponentialHistogram, h⟩
      · exact ⟨.summary, h⟩
    have val : ∀ k, these [(1, txtVal m.name), (5, ofKind .gauge m.data), (7, ofKind .sum m.data), (9, ofKind .histogram m.data),
        (10, ofKind .exponentialHistogram m.data), (11, ofKind .summary m.data)] (dataType k).2 = some (ofKind k m.data) := by
      intro k; cases k <;> rfl
    obtain ⟨k, hk⟩ := key f hf o hc
    obtain ⟨k', hk'⟩ := key g hg o hc'
    rw [hk, hk', val, val]
    refine ⟨rfl, fun l l' a b => ?_⟩
    obtain rfl := Option.some.inj a
    obtain rfl := Option.some.inj b
    exact kind_one (fun e => hfg (by rw [hk, hk', e])) _

theorem kinds_back {d : Nat} (hd : d + 4 ≤ 10000) {o : Option MData} (h : ∀ x, o = some x → MDataOk Short d x) :
    (kinds.flatMap fun k => (ofKind k o).map (toMData k)).head? = o := by
  cases o with
  | none => rfl
  | some x =>
    have hb := mdata_back hd (h x rfl)
    unfold kinds
    simp only [List.flatMap_cons, List.flatMap_nil, ofKind_some]
    cases hk : x.kind <;> rw [hk] at hb <;> simp [hb]

theorem metric_back {d : Nat} (hd : d + 5 ≤ 10000) {m : Metric} (h : MetricOk Short d m) : toMetric (ofMetric m) = m := by
  obtain ⟨h1, h2, h3⟩ := h
  unfold toMetric
  have hk : (kinds.flatMap fun k => (vals (dataType k).2 (ofMetric m)).map (toMData k)) = kinds.flatMap fun k => (ofKind k m.data).map (toMData k) := by
    congr 1
    funext k
    rw [ofMetric_eq, vals_build (n := (dataType k).2) (vs := ofKind k m.data) (by cases k <;> decide) (by cases k <;> rfl)]
  rw [hk, kinds_back (by omega) h3, ofMetric_eq, getTxt_of (n := 1) (s := m.name) (vals_build (by decide) rfl), restOf_build (seen := [1, 5, 7, 9, 10, 11]) hd rfl h2]

/-! ## Logs and spans -/

theorem log_fits {d : Nat} (hd : d + 3 ≤ 10000) {l : LogRecord} (h : LogOk Short d l) : Fits otlp (d + 3) (.msg 14) (ofLog l) := by
  refine fits_build (seen := [1, 3, 6, 9, 10]) hd rfl h.rest (by decide) ?_
  intro q hq f hf hn
  simp only [List.mem_cons, List.not_mem_nil, or_false] at hq
  rcases hq with rfl | rfl | rfl | rfl | rfl
  · exact put_num (n := 1) (k := .fixed64) (by decide) h.ts hf hn
  · exact put_txt (n := 3) (by decide) h.severity hf hn
  · exact put_msgs (n := 6) (k := 11) (by decide) (kvs_fits (by omega) h.attrs) hf hn
  · exact put_id (n := 9) (by decide) h.traceId hf hn
  · exact put_id (n := 10) (by decide) h.spanId hf hn

theorem log_back {d : Nat} (hd : d + 3 ≤ 10000) {l : LogRecord} (h : LogOk Short d l) : toLog (ofLog l) = l := by
  obtain ⟨ts, severity, attrs, spanId, traceId, rest⟩ := l
  unfold toLog ofLog
  rw [getNum_of (n := 1) (k := ts) (vals_build (by decide) rfl), getTxt_of (n := 3) (s := severity) (vals_build (by decide) rfl),
    vals_build (n := 6) (by decide) (vs := attrs.map ofKv) rfl, kvs_back (by omega) h.attrs,
    optTxt_of (n := 10) (o := spanId) (vals_build (by decide) rfl), optTxt_of (n := 9) (o := traceId) (vals_build (by decide) rfl),
    restOf_build (seen := [1, 3, 6, 9, 10]) hd rfl h.rest]

theorem span_fits {d : Nat} (hd : d + 3 ≤ 10000) {s : Span} (h : SpanOk Short d s) : Fits otlp (d + 3) (.msg 15) (ofSpan s) := by
  refine fits_build (seen := [1, 2, 4, 5, 7, 8, 9]) hd rfl h.rest (by decide) ?_
  intro q hq f hf hn
  simp only [List.mem_cons, List.not_mem_nil, or_false] at hq
  rcases hq with rfl | rfl | rfl | rfl | rfl | rfl | rfl
  · exact put_id (n := 1) (by decide) h.traceId hf hn
  · exact put_id (n := 2) (by decide) h.spanId hf hn
  · exact put_id (n := 4) (by decide) h.parentSpanId hf hn
  · exact put_txt (n := 5) (by decide) h.name hf hn
  · exact put_num (n := 7) (k := .fixed64) (by decide) h.start hf hn
  · exact put_num (n := 8) (k := .fixed64) (by decide) h.stop hf hn
  · exact put_msgs (n := 9) (k := 11) (by decide) (kvs_fits (by omega) h.attrs) hf hn

theorem span_back {d : Nat} (hd : d + 3 ≤ 10000) {s : Span} (h : SpanOk Short d s) : toSpan (ofSpan s) = s := by
  obtain ⟨name, traceId, spanId, parentSpanId, start, stop, attrs, rest⟩ := s
  unfold toSpan ofSpan
  rw [getTxt_of (n := 5) (s := name) (vals_build (by decide) rfl), optTxt_of (n := 1) (o := traceId) (vals_build (by decide) rfl),
    optTxt_of (n := 2) (o := spanId) (vals_build (by decide) rfl), optTxt_of (n := 4) (o := parentSpanId) (vals_build (by decide) rfl),
    getNum_of (n := 7) (k := start) (vals_build (by decide) rfl), getNum_of (n := 8) (k := stop) (vals_build (by decide) rfl),
    vals_build (n := 9) (by decide) (vs := attrs.map ofKv) rfl, kvs_back (by omega) h.attrs, restOf_build (seen := [1, 2, 4, 5, 7, 8, 9]) hd rfl h.rest]

/-! ## Scopes and resources -/

variable {α : Type}

/-- The message types of scopes, and of what is in them. -/
def scopeTypes : List (Nat × Nat) := [(8, 13), (9, 14), (10, 15)]

theorem scope_fits {d t i : Nat} (ht : (t, i) ∈ scopeTypes) (hd : d + 4 ≤ 10000) {ok : α → Prop} {item : α → Val} (hi : ∀ x, ok x → Fits otlp (d + 3) (.msg i) (item x)) {s : ScopeG α}
    (h : ScopesOk Short d ok s) : Fits otlp (d + 4) (.msg t) (ofScopeG t item s) := by
  have ht' : t = 8 ∧ i = 13 ∨ t = 9 ∧ i = 14 ∨ t = 10 ∧ i = 15 := by simpa [scopeTypes] using ht
  refine fits_build (seen := [1, 2, 3]) hd rfl restOk_nil (by rcases ht' with ⟨rfl, -⟩ | ⟨rfl, -⟩ | ⟨rfl, -⟩ <;> decide) ?_
  intro q hq f hf hn
  simp only [List.mem_cons, List.not_mem_nil, or_false] at hq
  rcases hq with rfl | rfl | rfl
  · refine put_msg (n := 1) (k := 12) (c := .optional) (by rcases ht' with ⟨rfl, -⟩ | ⟨rfl, -⟩ | ⟨rfl, -⟩ <;> decide) (by decide) (fun v hv => ?_) hf hn
    rw [Option.map_eq_some_iff] at hv
    obtain ⟨a, ha, rfl⟩ := hv
    exact instr_fits (by omega) (h.2.1 a ha)
  · refine put_msgs (n := 2) (k := i) (by rcases ht' with ⟨rfl, rfl⟩ | ⟨rfl, rfl⟩ | ⟨rfl, rfl⟩ <;> decide) (fun v hv => ?_) hf hn
    obtain ⟨x, hx, rfl⟩ := List.mem_map.1 hv
    exact hi x (h.2.2 x hx)
  · exact put_txt (n := 3) (by rcases ht' with ⟨rfl, -⟩ | ⟨rfl, -⟩ | ⟨rfl, -⟩ <;> decide) h.1 hf hn

theorem scope_back {d t i : Nat} (ht : (t, i) ∈ scopeTypes) (hd : d + 4 ≤ 10000) {ok : α → Prop} {item : α → Val} {back : Val → α} (hi : ∀ x, ok x → back (item x) = x)
    {s : ScopeG α} (h : ScopesOk Short d ok s) : toScopeG back (ofScopeG t item s) = s := by
  obtain ⟨schema, scope, items⟩ := s
  have ht' : t = 8 ∨ t = 9 ∨ t = 10 := by
    have : t = 8 ∧ i = 13 ∨ t = 9 ∧ i = 14 ∨ t = 10 ∧ i = 15 := by simpa [scopeTypes] using ht
    omega
  unfold toScopeG ofScopeG
  rw [getTxt_of (n := 3) (s := schema) (vals_build (by rcases ht' with rfl | rfl | rfl <;> decide) rfl),
    vals_build (n := 1) (by rcases ht' with rfl | rfl | rfl <;> decide) (vs := (scope.map ofInstr).toList) rfl,
    vals_build (n := 2) (by rcases ht' with rfl | rfl | rfl <;> decide) (vs := items.map item) rfl,
    opt_back fun a ha => instr_back (by omega) (h.2.1 a ha), map_back fun x hx => hi x (h.2.2 x hx)]

theorem res_fits {d t i : Nat} (ht : (t, i) ∈ scopeTypes) (hd : d + 5 ≤ 10000) {ok : α → Prop} {item : α → Val} (hi : ∀ x, ok x → Fits otlp (d + 3) (.msg i) (item x)) {r : ResourceG α}
    (h : ResourceOk Short d ok r) : Fits otlp (d + 5) (.msg (t - 4)) (ofResourceG t item r) := by
  have ht' : t = 8 ∨ t = 9 ∨ t = 10 := by
    have : t = 8 ∧ i = 13 ∨ t = 9 ∧ i = 14 ∨ t = 10 ∧ i = 15 := by simpa [scopeTypes] using ht
    omega
  refine fits_build (seen := [1, 2, 3]) hd rfl restOk_nil (by rcases ht' with rfl | rfl | rfl <;> decide) ?_
  intro q hq f hf hn
  simp only [List.mem_cons, List.not_mem_nil, or_false] at hq
  rcases hq with rfl | rfl | rfl
  · refine put_msg (n := 1) (k := 7) (c := .optional) (by rcases ht' with rfl | rfl | rfl <;> decide) (by decide) (fun v hv => ?_) hf hn
    rw [Option.map_eq_some_iff] at hv
    obtain ⟨a, ha, rfl⟩ := hv
    exact resource_fits (d := d + 1) (by omega) (h.2.1 a ha)
  · refine put_msgs (n := 2) (k := t) (by rcases ht' with rfl | rfl | rfl <;> decide) (fun v hv => ?_) hf hn
    obtain ⟨x, hx, rfl⟩ := List.mem_map.1 hv
    exact scope_fits ht (by omega) hi (h.2.2 x hx)
  · exact put_txt (n := 3) (by rcases ht' with rfl | rfl | rfl <;> decide) h.1 hf hn

theorem res_back {d t i : Nat} (ht : (t, i) ∈ scopeTypes) (hd : d + 5 ≤ 10000) {ok : α → Prop} {item : α → Val} {back : Val → α} (hi : ∀ x, ok x → back (item x) = x)
    {r : ResourceG α} (h : ResourceOk Short d ok r) : toResourceG back (ofResourceG t item r) = r := by
  obtain ⟨schema, resource, scopes⟩ := r
  have ht' : t = 8 ∨ t = 9 ∨ t = 10 := by
    have : t = 8 ∧ i = 13 ∨ t = 9 ∧ i = 14 ∨ t = 10 ∧ i = 15 := by simpa [scopeTypes] using ht
    omega
  unfold toResourceG ofResourceG
  rw [getTxt_of (n := 3) (s := schema) (vals_build (by rcases ht' with rfl | rfl | rfl <;> decide) rfl),
    vals_build (n := 1) (by rcases ht' with rfl | rfl | rfl <;> decide) (vs := (resource.map ofResource).toList) rfl,
    vals_build (n := 2) (by rcases ht' with rfl | rfl | rfl <;> decide) (vs := scopes.map (ofScopeG t item)) rfl,
    opt_back fun a ha => resource_back (d := d + 1) (by omega) (h.2.1 a ha), map_back fun x hx => scope_back ht (by omega) hi (h.2.2 x hx)]

theorem req_fits {d t i k : Nat} (ht : (t, i) ∈ scopeTypes) (hk : k + 7 = t) (hd : d + 6 ≤ 10000) {ok : α → Prop} {item : α → Val}
    (hi : ∀ x, ok x → Fits otlp (d + 3) (.msg i) (item x)) {rs : List (ResourceG α)} (h : ∀ r ∈ rs, ResourceOk Short d ok r) :
    Fits otlp (d + 6) (.msg k) (build k [(1, rs.map (ofResourceG t item))]) := by
  have ht' : t = 8 ∨ t = 9 ∨ t = 10 := by
    have : t = 8 ∧ i = 13 ∨ t = 9 ∧ i = 14 ∨ t = 10 ∧ i = 15 := by simpa [scopeTypes] using ht
    omega
  have hk' : k = t - 7 := by omega
  subst hk'
  refine fits_build (seen := [1]) hd rfl restOk_nil (by rcases ht' with rfl | rfl | rfl <;> decide) ?_
  intro q hq f hf hn
  simp only [List.mem_cons, List.not_mem_nil, or_false] at hq
  subst hq
  refine put_msgs (n := 1) (k := t - 4) (by rcases ht' with rfl | rfl | rfl <;> decide) (fun v hv => ?_) hf hn
  obtain ⟨x, hx, rfl⟩ := List.mem_map.1 hv
  exact res_fits ht (by omega) hi (h x hx)

theorem req_back {d t i k : Nat} (ht : (t, i) ∈ scopeTypes) (hk : k + 7 = t) (hd : d + 6 ≤ 10000) {ok : α → Prop} {item : α → Val} {back : Val → α}
    (hi : ∀ x, ok x → back (item x) = x) {rs : List (ResourceG α)} (h : ∀ r ∈ rs, ResourceOk Short d ok r) :
    (vals 1 (build k [(1, rs.map (ofResourceG t item))])).map (toResourceG back) = rs := by
  have ht' : t = 8 ∨ t = 9 ∨ t = 10 := by
    have : t = 8 ∧ i = 13 ∨ t = 9 ∧ i = 14 ∨ t = 10 ∧ i = 15 := by simpa [scopeTypes] using ht
    omega
  have hk' : k = t - 7 := by omega
  subst hk'
  rw [vals_build (n := 1) (by rcases ht' with rfl | rfl | rfl <;> decide) (vs := rs.map (ofResourceG t item)) rfl, map_back fun r hr => res_back ht (by omega) hi (h r hr)]

theorem vals_fieldsOf (n : Nat) (v : Val) (u : Bytes) (h : ∃ fs u, v = .msg fs u) : vals n (.msg (fieldsOf v) u) = vals n v := by
  obtain ⟨fs, u', rfl⟩ := h
  rfl

end Verif.Ex
