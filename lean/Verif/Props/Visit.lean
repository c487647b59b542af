import Verif.Lemmas.Visit2
/-!
# C37–C39, C48–C50: trimming payloads
-/
namespace Verif.Vs
open St (Filter)
variable {P : Hashes}

/-- The visitor of a script scan: rq.go:90-95. -/
def visitor (P : Hashes) (fs : List Filter) (start stop : Nat) : All := setTimeRange (compile P fs {}) start stop

section
variable {fs : List Filter} {start stop : Nat}

theorem askedIds_eq (q : Int) : askedIds fs q = ((askedBase fs q).filterMap hexDecode).map some := rfl

theorem resource_ok {α : Type} {rm : ResourceG α} {b : Bool}
    (ht : ∀ p v, .base p v ∈ fs → P.H v = P.H rm.schema → v = rm.schema)
    (ha : ∀ p k v, .attr p k v ∈ fs → ∀ kv ∈ resAttrs rm.resource, ∀ s, kv.value = some (.str s) →
      (P.H0 (pair k v) = P.H (pair kv.key s) ↔ k = kv.key ∧ v = s))
    (h : acceptResource P (visitor P fs start stop) rm = some b) : b = true ↔ ResourceOk (actual fs) rm := by
  have C := compiled P fs start stop
  refine andThen_iff h ?_ ?_
  · exact accept_iff C.resourceSchema (fun w hw => ht _ w (mem_askedBase.1 hw))
  · intro b hb
    exact matchAttr_iff C.resourceAttrOk C.resourceAttr (fun p hp kv hk s hs => ha _ p.1 p.2 (mem_askedAttrs.1 hp) kv hk s hs) hb

theorem scope_ok {α : Type} {sm : ScopeG α} {b : Bool}
    (ht : ∀ p v, .base p v ∈ fs → ∀ t, t = sm.schema ∨ t = scName sm.scope ∨ t = scVersion sm.scope → P.H v = P.H t → v = t)
    (ha : ∀ p k v, .attr p k v ∈ fs → ∀ kv ∈ scAttrs sm.scope, ∀ s, kv.value = some (.str s) →
      (P.H0 (pair k v) = P.H (pair kv.key s) ↔ k = kv.key ∧ v = s))
    (h : acceptScope P (visitor P fs start stop) sm = some b) : b = true ↔ ScopeOk (actual fs) sm := by
  have C := compiled P fs start stop
  have := andThen_iff (p := (OneOf (actual fs).scopeSchema sm.schema ∧ OneOf (actual fs).scopeName (scName sm.scope)) ∧
      OneOf (actual fs).scopeVersion (scVersion sm.scope)) (q := AllOf (actual fs).scopeAttrs (scAttrs sm.scope)) h ?_ ?_
  · rw [this]; unfold ScopeOk; tauto
  · rw [Bool.and_eq_true, Bool.and_eq_true]
    refine and_congr (and_congr ?_ ?_) ?_
    · exact accept_iff C.scopeSchema (fun w hw => ht _ w (mem_askedBase.1 hw) _ (.inl rfl))
    · exact accept_iff C.scopeName (fun w hw => ht _ w (mem_askedBase.1 hw) _ (.inr (.inl rfl)))
    · exact accept_iff C.scopeVersion (fun w hw => ht _ w (mem_askedBase.1 hw) _ (.inr (.inr rfl)))
  · intro b hb
    refine matchAttr_iff C.scopeAttrOk C.scopeAttr (fun p hp kv hk s hs => ?_) hb
    obtain ⟨q, -, hq⟩ := mem_actual_scopeAttrs.1 hp
    exact ha _ p.1 p.2 hq kv hk s hs

theorem attrs_true {kvs : List KeyValue} {b : Bool} (h : matchAttr P (visitor P fs start stop).attr kvs = some b) :
    b = true ↔ AllOf (actual fs).attrs kvs := by
  have C := compiled P fs start stop
  have e : (visitor P fs start stop).attr = [] := C.attr
  rw [e, matchAttr_nil] at h
  cases h
  exact iff_of_true rfl (by simp [actual, AllOf])

theorem log_ok {x : LogRecord} {b : Bool} (ht : ∀ p v, .base p v ∈ fs → P.H v = P.H x.severity → v = x.severity)
    (h : acceptLog P (visitor P fs start stop) x = some b) : b = true ↔ LogOk (actual fs) start stop x := by
  have C := compiled P fs start stop
  have := andThen_iff (p := OneOf (actual fs).level x.severity ∧ (start ≤ x.ts ∧ x.ts < stop)) (q := AllOf (actual fs).attrs x.attrs) h ?_
    (fun b hb => attrs_true hb)
  · rw [this]; simp only [LogOk, OneId, actual, true_or, true_and, and_assoc]
  · rw [Bool.and_eq_true]
    exact and_congr (accept_iff C.logLevel (fun w hw => ht _ w (mem_askedBase.1 hw))) (acceptTimestamp_iff _ _)

theorem point_ok {x : DataPoint} {b : Bool} (h : acceptPoint P (visitor P fs start stop) x = some b) :
    b = true ↔ PointOk (actual fs) start stop x := by
  have := andThen_iff (p := start ≤ x.ts ∧ x.ts < stop) (q := AllOf (actual fs).attrs x.attrs) h (acceptTimestamp_iff _ _)
    (fun b hb => attrs_true hb)
  rw [this]; simp only [PointOk, and_assoc]

theorem span_ok {x : Span} {b : Bool} (ht : ∀ p v, .base p v ∈ fs → P.H v = P.H x.name → v = x.name)
    (hid : ∀ p v h, .base p v ∈ fs → hexDecode v = some h → ∀ t, t = x.traceId.getD [] ∨ t = x.spanId.getD [] → P.H h = P.H t → h = t)
    (h : acceptSpan P (visitor P fs start stop) x = some b) : b = true ↔ SpanOk (actual fs) start stop x := by
  have C := compiled P fs start stop
  have := andThen_iff (p := ((OneOf (actual fs).name x.name ∧ (start ≤ x.start ∧ x.start < stop)) ∧
      OneId (actual fs).traceId x.traceId) ∧ OneId (actual fs).spanId x.spanId) (q := AllOf (actual fs).attrs x.attrs) h ?_
    (fun b hb => attrs_true hb)
  · rw [this]
    have : OneId (actual fs).parentId x.parentSpanId := .inl rfl
    unfold SpanOk; tauto
  · rw [Bool.and_eq_true, Bool.and_eq_true, Bool.and_eq_true]
    refine and_congr (and_congr (and_congr ?_ (acceptTimestamp_iff _ _)) ?_) ?_
    · exact accept_iff C.name (fun w hw => ht _ w (mem_askedBase.1 hw))
    · refine (accept_iff C.traceId (fun w hw => ?_)).trans oneId_map.symm
      obtain ⟨v, hv, hd⟩ := List.mem_filterMap.1 hw
      exact hid _ v w (mem_askedBase.1 hv) hd _ (.inl rfl)
    · refine (accept_iff C.parentSpanId (fun w hw => ?_)).trans oneId_map.symm
      obtain ⟨v, hv, hd⟩ := List.mem_filterMap.1 hw
      exact hid _ v w (mem_askedBase.1 hv) hd _ (.inr rfl)

/-- **C37, C38**, exact: filtering a payload returns exactly the records that match the filters as the code reads them
(`actual`), unless it panics. -/
theorem C38_exact {d out : Data} (hf : Faithful P fs d) (h : visit P (visitor P fs start stop) d = some out) :
    Trimmed (actual fs) start stop d out := by
  cases d with
  | none => cases h; trivial
  | logs rs =>
    simp only [visit] at h
    cases hv : visitLogs P (visitor P fs start stop) rs with
    | none => rw [hv] at h; cases h
    | some o =>
      rw [hv] at h; cases h
      simp only [Trimmed]
      refine visitResources_picked hv (fun rm hrm b hb => ?_) (fun rm hrm sm hsm b hb => ?_) (fun rm hrm sm hsm ys hys => ?_)
      · exact resource_ok (fun p v hp => hf.text p v hp _ ⟨rm, hrm, .inl rfl⟩)
          (fun p k v hp kv hk s hs => hf.attr p k v hp kv s ⟨rm, hrm, .inl hk⟩ hs) hb
      · refine scope_ok (fun p v hp t ht => hf.text p v hp t ⟨rm, hrm, .inr ⟨sm, hsm, ?_⟩⟩)
          (fun p k v hp kv hk s hs => hf.attr p k v hp kv s ⟨rm, hrm, .inr ⟨sm, hsm, .inl hk⟩⟩ hs) hb
        tauto
      · have := select_picked (p := LogOk (actual fs) start stop) hys
          (fun x hx b hb => log_ok (fun p v hp => hf.text p v hp _ ⟨rm, hrm, .inr ⟨sm, hsm, .inr (.inr (.inr ⟨x, hx, rfl⟩))⟩⟩) hb)
        exact ⟨this, picked_ne_nil this⟩
  | traces rs =>
    simp only [visit] at h
    cases hv : visitTraces P (visitor P fs start stop) rs with
    | none => rw [hv] at h; cases h
    | some o =>
      rw [hv] at h; cases h
      simp only [Trimmed]
      refine visitResources_picked hv (fun rm hrm b hb => ?_) (fun rm hrm sm hsm b hb => ?_) (fun rm hrm sm hsm ys hys => ?_)
      · exact resource_ok (fun p v hp => hf.text p v hp _ ⟨rm, hrm, .inl rfl⟩)
          (fun p k v hp kv hk s hs => hf.attr p k v hp kv s ⟨rm, hrm, .inl hk⟩ hs) hb
      · refine scope_ok (fun p v hp t ht => hf.text p v hp t ⟨rm, hrm, .inr ⟨sm, hsm, ?_⟩⟩)
          (fun p k v hp kv hk s hs => hf.attr p k v hp kv s ⟨rm, hrm, .inr ⟨sm, hsm, .inl hk⟩⟩ hs) hb
        tauto
      · have := select_picked (p := SpanOk (actual fs) start stop) hys
          (fun x hx b hb => span_ok (fun p v hp => hf.text p v hp _ ⟨rm, hrm, .inr ⟨sm, hsm, .inr (.inr (.inr ⟨x, hx, .inl rfl⟩))⟩⟩)
            (fun p v h hp hd t ht => hf.id p v h hp hd t ⟨rm, hrm, .inr ⟨sm, hsm, .inr (.inr (.inr ⟨x, hx, .inr ht⟩))⟩⟩) hb)
        exact ⟨this, picked_ne_nil this⟩
  | metrics rs =>
    simp only [visit] at h
    cases hv : visitMetrics P (visitor P fs start stop) rs with
    | none => rw [hv] at h; cases h
    | some o =>
      rw [hv] at h; cases h
      have C := compiled P fs start stop
      simp only [Trimmed]
      refine visitResources_picked hv (fun rm hrm b hb => ?_) (fun rm hrm sm hsm b hb => ?_) (fun rm hrm sm hsm ys hys => ?_)
      · exact resource_ok (fun p v hp => hf.text p v hp _ ⟨rm, hrm, .inl rfl⟩)
          (fun p k v hp kv hk s hs => hf.attr p k v hp kv s ⟨rm, hrm, .inl hk⟩ hs) hb
      · refine scope_ok (fun p v hp t ht => hf.text p v hp t ⟨rm, hrm, .inr ⟨sm, hsm, ?_⟩⟩)
          (fun p k v hp kv hk s hs => hf.attr p k v hp kv s ⟨rm, hrm, .inr ⟨sm, hsm, .inl hk⟩⟩ hs) hb
        tauto
      · have := selectMetrics_picked (W := actual fs) (start := start) (stop := stop) hys
          (fun m hm => accept_iff C.name (fun w hw => hf.text _ w (mem_askedBase.1 hw) _
            ⟨rm, hrm, .inr ⟨sm, hsm, .inr (.inr (.inr ⟨m, hm, rfl⟩))⟩⟩))
          (fun m hm d hd p hp b hb => point_ok hb)
        exact ⟨this, picked_ne_nil this⟩

/-- **C50**, partial: filtering a payload in which every attribute has a value does not panic (missing: attributes without a
value, `C50_refuted`). -/
theorem C50_no_panic_partial {A : All} {d : Data} (hd : NoNil d) : (visit P A d).isSome := by
  cases d with
  | none => rfl
  | logs rs =>
    have : (visitLogs P A rs).isSome := visitResources_some
      (fun rm hrm => andThen_some (matchAttr_some fun kv hk => hd kv ⟨rm, hrm, .inl hk⟩))
      (fun rm hrm sm hsm => andThen_some (matchAttr_some fun kv hk => hd kv ⟨rm, hrm, .inr ⟨sm, hsm, .inl hk⟩⟩))
      (fun rm hrm sm hsm => select_some fun x hx =>
        andThen_some (matchAttr_some fun kv hk => hd kv ⟨rm, hrm, .inr ⟨sm, hsm, .inr ⟨x, hx, hk⟩⟩⟩))
    obtain ⟨o, ho⟩ := Option.isSome_iff_exists.1 this
    simp only [visit, ho]; rfl
  | traces rs =>
    have : (visitTraces P A rs).isSome := visitResources_some
      (fun rm hrm => andThen_some (matchAttr_some fun kv hk => hd kv ⟨rm, hrm, .inl hk⟩))
      (fun rm hrm sm hsm => andThen_some (matchAttr_some fun kv hk => hd kv ⟨rm, hrm, .inr ⟨sm, hsm, .inl hk⟩⟩))
      (fun rm hrm sm hsm => select_some fun x hx =>
        andThen_some (matchAttr_some fun kv hk => hd kv ⟨rm, hrm, .inr ⟨sm, hsm, .inr ⟨x, hx, hk⟩⟩⟩))
    obtain ⟨o, ho⟩ := Option.isSome_iff_exists.1 this
    simp only [visit, ho]; rfl
  | metrics rs =>
    have : (visitMetrics P A rs).isSome := visitResources_some
      (fun rm hrm => andThen_some (matchAttr_some fun kv hk => hd kv ⟨rm, hrm, .inl hk⟩))
      (fun rm hrm sm hsm => andThen_some (matchAttr_some fun kv hk => hd kv ⟨rm, hrm, .inr ⟨sm, hsm, .inl hk⟩⟩))
      (fun rm hrm sm hsm => selectMetrics_some fun m hm d hd' p hp =>
        andThen_some (matchAttr_some fun kv hk => hd kv ⟨rm, hrm, .inr ⟨sm, hsm, .inr ⟨m, hm, d, hd', p, hp, hk⟩⟩⟩))
    obtain ⟨o, ho⟩ := Option.isSome_iff_exists.1 this
    simp only [visit, ho]; rfl

/-! ## The filters that are read as intended -/

/-- Filters that the code reads as intended: none on attributes of records, span ids or parent ids, none on trace ids of logs,
and trace ids in hexadecimal. -/
structure Supported (fs : List Filter) (d : Data) : Prop where
  attrs : ∀ k v, .attr Pfx.attributes k v ∉ fs
  span : ∀ v, .base Pfx.spanId v ∉ fs
  parent : ∀ v, .base Pfx.parentSpanId v ∉ fs
  hex : ∀ v, .base Pfx.traceId v ∈ fs → (hexDecode v).isSome
  logs : ∀ rs, d = .logs rs → ∀ v, .base Pfx.traceId v ∉ fs

theorem map_some_filterMap {l : List Bytes} (h : ∀ v ∈ l, (hexDecode v).isSome) : (l.filterMap hexDecode).map some = l.map hexDecode := by
  induction l with
  | nil => rfl
  | cons v l ih =>
    obtain ⟨b, hb⟩ := Option.isSome_iff_exists.1 (h v List.mem_cons_self)
    rw [List.filterMap_cons_some hb, List.map_cons, List.map_cons, hb, ih fun v hv => h v (List.mem_cons_of_mem _ hv)]

theorem askedBase_nil {q : Int} (h : ∀ v, .base q v ∉ fs) : askedBase fs q = [] :=
  List.eq_nil_iff_forall_not_mem.2 fun v hv => h v (mem_askedBase.1 hv)

theorem actual_intended {d : Data} (h : Supported fs d) :
    intended fs = { actual fs with logTraceId := (intended fs).logTraceId, logSpanId := [] } := by
  have e1 : (actual fs).scopeAttrs = (intended fs).scopeAttrs := by
    show List.filterMap _ fs = List.filterMap _ fs
    apply List.filterMap_congr
    intro f hf
    cases f with
    | attr p k v =>
      have : p ≠ Pfx.attributes := fun e => h.attrs k v (e ▸ hf)
      simp [this]
    | base => rfl
    | unset => rfl
  have e2 : (intended fs).attrs = [] := List.eq_nil_iff_forall_not_mem.2 fun a ha => h.attrs a.1 a.2 (mem_askedAttrs.1 ha)
  have e3 : (actual fs).traceId = (intended fs).traceId := map_some_filterMap fun v hv => h.hex v (mem_askedBase.1 hv)
  have e4 : (intended fs).spanId = [] := by simp [intended, askedBase_nil h.span]
  have e5 : (intended fs).parentId = [] := by simp [intended, askedBase_nil h.parent]
  have e6 : (intended fs).logSpanId = [] := by simp [intended, askedBase_nil h.span]
  have e7 : (actual fs).spanId = [] := by simp [actual, askedIds, askedBase_nil h.parent]
  have e8 : (actual fs).attrs = [] := rfl
  have e9 : (actual fs).parentId = [] := rfl
  have : intended fs = { actual fs with scopeAttrs := (intended fs).scopeAttrs, attrs := (intended fs).attrs, traceId := (intended fs).traceId, spanId := (intended fs).spanId, parentId := (intended fs).parentId, logTraceId := (intended fs).logTraceId, logSpanId := (intended fs).logSpanId } := rfl
  rw [e2, e4, e5, e6, ← e1, ← e3] at this
  refine this.trans ?_
  simp only [e7, e8, e9]

/-- **C37** and **C38**, partial: with such filters, exactly the records that match the filters as intended are returned (missing:
the other filters, `C39_refuted`). -/
theorem C38_intended_partial {d out : Data} (hs : Supported fs d) (hf : Faithful P fs d)
    (h : visit P (visitor P fs start stop) d = some out) : Trimmed (intended fs) start stop d out := by
  have ht := C38_exact hf h
  have e := actual_intended hs
  cases d with
  | none => cases out <;> exact ht
  | logs rs =>
    have e1 : (intended fs).logTraceId = [] := by simp [intended, askedBase_nil (hs.logs rs rfl)]
    rw [e1] at e
    rw [e]
    exact ht
  | traces rs =>
    cases out with
    | traces o => rw [e]; exact ht
    | none => exact ht
    | logs => exact ht
    | metrics => exact ht
  | metrics rs =>
    cases out with
    | metrics o => rw [e]; exact ht
    | none => exact ht
    | logs => exact ht
    | traces => exact ht

end

/-! ## The same as equations between the records -/

theorem picked_flatMap {β γ δ : Type} {p : β → Prop} {r : β → γ → Prop} {xs : List β} {ys : List γ} (h : Picked p r xs ys)
    (F : β → List δ) (G : γ → List δ) (h1 : ∀ x y, p x → r x y → G y = F x) (h2 : ∀ x, ¬ p x → F x = []) :
    ys.flatMap G = xs.flatMap F := by
  induction h with
  | nil => rfl
  | skip hn _ ih => rw [List.flatMap_cons, h2 _ hn, List.nil_append, ih]
  | keep hp hr _ ih => rw [List.flatMap_cons, List.flatMap_cons, h1 _ _ hp hr, ih]

open Classical in
theorem filter_flatMap' {β δ : Type} (xs : List β) (f : β → List δ) (p : δ → Prop) :
    (xs.flatMap f).filter (fun x => decide (p x)) = xs.flatMap fun x => (f x).filter fun x => decide (p x) := by
  induction xs with
  | nil => rfl
  | cons x xs ih => rw [List.flatMap_cons, List.filter_append, ih, List.flatMap_cons]

open Classical in
theorem trimmed_entriesOf {α : Type} {W : Wanted} {start stop : Nat} {has : List α → Prop} {items : List α → List α → Prop}
    {recs : α → List Rec} {rs out : List (ResourceG α)} (h : ResourcesPicked W has items rs out)
    (hi : ∀ xs ys, items xs ys → ys.flatMap recs = (xs.flatMap recs).filter fun r => decide (RecOk W start stop r))
    (hh : ∀ xs, ¬ has xs → ∀ x ∈ xs, ∀ r ∈ recs x, ¬ RecOk W start stop r) :
    (entriesOf recs out).map Entry.bare = ((entriesOf recs rs).filter fun e => decide (EntryOk W start stop e)).map Entry.bare := by
  unfold entriesOf
  rw [filter_flatMap', List.map_flatMap, List.map_flatMap]
  refine picked_flatMap h _ _ ?_ ?_
  · rintro rm rm' ⟨hro, -⟩ ⟨e1, e2, hsc⟩
    rw [filter_flatMap', List.map_flatMap, List.map_flatMap]
    refine picked_flatMap hsc _ _ ?_ ?_
    · rintro sm sm' ⟨hso, -⟩ ⟨e3, hit⟩
      have hL : ∀ (rsch : Bytes) (res : Option Resource) (ss : Bytes) (sc : Option InstrScope) (xs : List α),
          (xs.flatMap fun x => (recs x).map fun r => (⟨rsch, res, ss, sc, r⟩ : Entry)) = (xs.flatMap recs).map fun r => ⟨rsch, res, ss, sc, r⟩ := by
        intro rsch res ss sc xs
        rw [List.map_flatMap]
      rw [hL, hL, hi _ _ hit, List.filter_map, List.map_map, List.map_map, e1, e2, e3]
      have : List.filter ((fun e => decide (EntryOk W start stop e)) ∘ fun r => (⟨rm.schema, rm.resource, sm.schema, sm.scope, r⟩ : Entry))
          (List.flatMap recs sm.items) = List.filter (fun r => decide (RecOk W start stop r)) (List.flatMap recs sm.items) := by
        apply List.filter_congr
        intro r _
        simp only [Function.comp, decide_eq_decide]
        unfold EntryOk
        obtain ⟨a, b⟩ := hro
        obtain ⟨c, d, e, f⟩ := hso
        tauto
      rw [this]
      rfl
    · intro sm hn
      simp only [List.map_eq_nil_iff, List.filter_eq_nil_iff, decide_eq_true_eq]
      rintro en hen hok
      obtain ⟨x, hx, hen⟩ := List.mem_flatMap.1 hen
      obtain ⟨r, hr, rfl⟩ := List.mem_map.1 hen
      obtain ⟨-, -, a, b, c, d, hrec⟩ := hok
      refine hn ⟨⟨a, b, c, d⟩, ?_⟩
      by_contra hno
      exact hh _ hno x hx r hr hrec
  · intro rm hn
    simp only [List.map_eq_nil_iff, List.filter_eq_nil_iff, decide_eq_true_eq]
    rintro en hen hok
    obtain ⟨sm, hsm, hen⟩ := List.mem_flatMap.1 hen
    obtain ⟨x, hx, hen⟩ := List.mem_flatMap.1 hen
    obtain ⟨r, hr, rfl⟩ := List.mem_map.1 hen
    obtain ⟨a', b', a, b, c, d, hrec⟩ := hok
    refine hn ⟨⟨a', b'⟩, sm, hsm, ⟨a, b, c, d⟩, ?_⟩
    by_contra hno
    exact hh _ hno x hx r hr hrec

open Classical in
theorem picked_filter {β : Type} {p : β → Prop} {xs ys : List β} (h : Picked p (fun x y => y = x) xs ys) :
    ys = xs.filter fun x => decide (p x) := by
  induction h with
  | nil => rfl
  | skip hn _ ih => rw [List.filter_cons_of_neg (by simpa using hn)]; exact ih
  | keep hp hr _ ih => rw [List.filter_cons_of_pos (by simpa using hp), hr, ← ih]

open Classical in
/-- A trimmed payload has exactly the wanted records of the payload, in order, under their resources and scopes. -/
theorem trimmed_entries {W : Wanted} {start stop : Nat} {d out : Data} (h : Trimmed W start stop d out) :
    (entries out).map Entry.bare = ((entries d).filter fun e => decide (EntryOk W start stop e)).map Entry.bare := by
  cases d with
  | none => cases out <;> first | exact h.elim | rfl
  | logs rs =>
    cases out with
    | logs o =>
      simp only [Trimmed] at h
      refine trimmed_entriesOf h (fun xs ys hp => ?_) (fun xs hn x hx r hr hok => hn ⟨x, hx, ?_⟩)
      · rw [picked_filter hp]
        clear hp h
        induction xs with
        | nil => rfl
        | cons x xs ih =>
          by_cases hx : LogOk W start stop x
          · rw [List.filter_cons_of_pos (by simpa using hx), List.flatMap_cons, ih]; simp [RecOk, hx]
          · rw [List.filter_cons_of_neg (by simpa using hx), ih]; simp [RecOk, hx]
      · rw [List.mem_singleton] at hr; subst hr; exact hok
    | none => exact h.elim
    | traces => exact h.elim
    | metrics => exact h.elim
  | traces rs =>
    cases out with
    | traces o =>
      simp only [Trimmed] at h
      refine trimmed_entriesOf h (fun xs ys hp => ?_) (fun xs hn x hx r hr hok => hn ⟨x, hx, ?_⟩)
      · rw [picked_filter hp]
        clear hp h
        induction xs with
        | nil => rfl
        | cons x xs ih =>
          by_cases hx : SpanOk W start stop x
          · rw [List.filter_cons_of_pos (by simpa using hx), List.flatMap_cons, ih]; simp [RecOk, hx]
          · rw [List.filter_cons_of_neg (by simpa using hx), ih]; simp [RecOk, hx]
      · rw [List.mem_singleton] at hr; subst hr; exact hok
    | none => exact h.elim
    | logs => exact h.elim
    | metrics => exact h.elim
  | metrics rs =>
    cases out with
    | metrics o =>
      simp only [Trimmed] at h
      refine trimmed_entriesOf h (fun xs ys hp => ?_) (fun xs hn x hx r hr hok => hn ⟨x, hx, ?_⟩)
      · rw [filter_flatMap']
        refine picked_flatMap hp _ _ ?_ ?_
        · rintro m m' ⟨hn, -⟩ ⟨e1, d, d', hd, hd', ek, -, -, hpk⟩
          simp only [hd, hd', picked_filter hpk, e1, ek]
          rw [List.filter_map]
          congr 1
          apply List.filter_congr
          intro p _
          simp [RecOk, hn]
        · intro m hn
          rw [List.filter_eq_nil_iff]
          intro r hr hok
          simp only [decide_eq_true_eq] at hok
          cases hd : m.data with
          | none => rw [hd] at hr; cases hr
          | some d =>
            rw [hd] at hr
            obtain ⟨p, hp, rfl⟩ := List.mem_map.1 hr
            exact hn ⟨hok.1, d, hd, p, hp, hok.2⟩
      · cases hd : x.data with
        | none => rw [hd] at hr; cases hr
        | some d =>
          rw [hd] at hr
          obtain ⟨p, hp, rfl⟩ := List.mem_map.1 hr
          exact ⟨hok.1, d, hd, p, hp, hok.2⟩
    | none => exact h.elim
    | logs => exact h.elim
    | traces => exact h.elim

variable {fs : List Filter} {start stop : Nat}

open Classical in
/-- **C37**, partial: every record returned was in the payload, under the same resource and scope, in the window, and matches all
filters. -/
theorem C37_only_matching_partial {d out : Data} (hs : Supported fs d) (hf : Faithful P fs d)
    (h : visit P (visitor P fs start stop) d = some out) :
    ∀ e ∈ entries out, ∃ e' ∈ entries d, e'.bare = e.bare ∧ EntryOk (intended fs) start stop e' := by
  intro e he
  have := trimmed_entries (C38_intended_partial hs hf h)
  have hm : e.bare ∈ (entries out).map Entry.bare := List.mem_map_of_mem he
  rw [this] at hm
  obtain ⟨e', he', hb⟩ := List.mem_map.1 hm
  rw [List.mem_filter, decide_eq_true_eq] at he'
  exact ⟨e', he'.1, hb, he'.2⟩

open Classical in
/-- **C38**, partial: nothing that matches is dropped, nothing is repeated or reordered. -/
theorem C38_all_matching_partial {d out : Data} (hs : Supported fs d) (hf : Faithful P fs d)
    (h : visit P (visitor P fs start stop) d = some out) :
    (entries out).map Entry.bare = ((entries d).filter fun e => decide (EntryOk (intended fs) start stop e)).map Entry.bare :=
  trimmed_entries (C38_intended_partial hs hf h)

/-- The time of a record. -/
def Rec.time : Rec → Nat
  | .log x => x.ts
  | .span x => x.start
  | .point _ _ p => p.ts

open Classical in
/-- **C38**: without filters, exactly the records in the window are returned; whatever the hash function. -/
theorem C38_no_filters {d : Data} : ∃ out, visit P (visitor P [] start stop) d = some out ∧
    (entries out).map Entry.bare = ((entries d).filter fun e => decide (start ≤ e.record.time ∧ e.record.time < stop)).map Entry.bare := by
  have hsome : (visit P (visitor P [] start stop) d).isSome := by
    have hr : ∀ {α : Type} (rm : ResourceG α), acceptResource P (visitor P [] start stop) rm = some true := fun _ => rfl
    have hsc : ∀ {α : Type} (sm : ScopeG α), acceptScope P (visitor P [] start stop) sm = some true := fun _ => rfl
    have hat : ∀ x kvs, (andThen x (matchAttr P (visitor P [] start stop).attr kvs)).isSome := fun x kvs => andThen_some rfl
    cases d with
    | none => rfl
    | logs rs =>
      have : (visitLogs P (visitor P [] start stop) rs).isSome := visitResources_some (fun rm _ => by rw [hr]; rfl)
        (fun rm _ sm _ => by rw [hsc]; rfl) (fun rm _ sm _ => select_some fun x _ => hat _ _)
      obtain ⟨o, ho⟩ := Option.isSome_iff_exists.1 this
      simp only [visit, ho]; rfl
    | traces rs =>
      have : (visitTraces P (visitor P [] start stop) rs).isSome := visitResources_some (fun rm _ => by rw [hr]; rfl)
        (fun rm _ sm _ => by rw [hsc]; rfl) (fun rm _ sm _ => select_some fun x _ => hat _ _)
      obtain ⟨o, ho⟩ := Option.isSome_iff_exists.1 this
      simp only [visit, ho]; rfl
    | metrics rs =>
      have : (visitMetrics P (visitor P [] start stop) rs).isSome := visitResources_some (fun rm _ => by rw [hr]; rfl)
        (fun rm _ sm _ => by rw [hsc]; rfl) (fun rm _ sm _ => selectMetrics_some fun m _ d _ p _ => hat _ _)
      obtain ⟨o, ho⟩ := Option.isSome_iff_exists.1 this
      simp only [visit, ho]; rfl
  obtain ⟨out, ho⟩ := Option.isSome_iff_exists.1 hsome
  refine ⟨out, ho, ?_⟩
  have hF : Faithful P [] d := ⟨fun _ _ h => (nomatch h), fun _ _ _ h => (nomatch h), fun _ _ _ h => (nomatch h)⟩
  rw [trimmed_entries (C38_exact hF ho)]
  congr 1
  apply List.filter_congr
  intro e _
  rw [decide_eq_decide]
  have h1 : ∀ v, OneOf [] v := fun v => .inl rfl
  have h2 : ∀ v, AllOf [] v := fun v _ h => by cases h
  have h3 : ∀ v, OneId [] v := fun v => .inl rfl
  obtain ⟨a, b, c, dd, r⟩ := e
  cases r <;> simp [EntryOk, RecOk, LogOk, SpanOk, PointOk, actual, intended, askedBase, askedAttrs, askedIds, h1, h2, h3, Rec.time]

/-! ## Concrete cases -/

/-- `a` = 97, … -/
def svc : KeyValue := { key := [115], value := some (.str [97]) }
def demoLogs : List (ResourceG LogRecord) :=
  [{ schema := [117], resource := some { attrs := [svc] }, scopes := [
      { schema := [118], scope := some { name := [108] }, items := [{ ts := 5, severity := [101] }, { ts := 6, severity := [119] }, { ts := 9, severity := [101] }] }] },
   { scopes := [{ items := [{ ts := 5, severity := [101] }] }] }]
def demoFilters : List Filter := [.base Pfx.logsLevel [101], .attr Pfx.resourceAttributes [115] [97]]

/-- The hypotheses of C37 and C38 hold, with the real hash function, of a payload and filters, and one record is found. -/
theorem demo_faithful : Faithful xx demoFilters (.logs demoLogs) ∧ Supported demoFilters (.logs demoLogs) ∧ NoNil (.logs demoLogs) := by
  have hT : ∀ t, HasText (.logs demoLogs) t → t ∈ [[], [117], [118], [108], [101], ([119] : Bytes)] := by
    intro t h
    simp [HasText, GroupText, demoLogs, scName, scVersion] at h
    simp; tauto
  have hA : ∀ kv, HasAttr (.logs demoLogs) kv → kv = svc := by
    intro kv h
    simpa [HasAttr, GroupAttr, demoLogs, resAttrs, scAttrs] using h
  refine ⟨⟨?_, ?_, ?_⟩, ⟨?_, ?_, ?_, ?_, ?_⟩, ?_⟩
  · intro p v h t ht
    simp only [demoFilters, List.mem_cons, Filter.base.injEq, reduceCtorEq, List.not_mem_nil, or_false] at h
    obtain ⟨-, rfl⟩ := h
    have := hT t ht
    revert t
    have : ∀ t ∈ [[], [117], [118], [108], [101], ([119] : Bytes)], xx.H [101] = xx.H t → [101] = t := by decide +kernel
    exact fun t _ ht' => this t ht'
  · intro p v h hp hd
    simp only [demoFilters, List.mem_cons, Filter.base.injEq, reduceCtorEq, List.not_mem_nil, or_false] at hp
    obtain ⟨-, rfl⟩ := hp
    cases hd
  · intro p k v hp kv s hkv hs
    simp only [demoFilters, List.mem_cons, Filter.attr.injEq, reduceCtorEq, List.not_mem_nil, or_false, false_or] at hp
    obtain ⟨-, rfl, rfl⟩ := hp
    rw [hA kv hkv] at hs ⊢
    cases hs
    exact iff_of_true (by decide +kernel) (by decide)
  · simp [demoFilters, Pfx.attributes, Pfx.resourceAttributes]
  · simp [demoFilters, Pfx.spanId, Pfx.logsLevel]
  · simp [demoFilters, Pfx.parentSpanId, Pfx.logsLevel]
  · simp [demoFilters, Pfx.traceId, Pfx.logsLevel]
  · simp [demoFilters, Pfx.traceId, Pfx.logsLevel]
  · intro kv h; rw [hA kv h]; decide

example : visit xx (visitor xx demoFilters 5 9) (.logs demoLogs) = some (.logs
    [{ schema := [117], resource := some { attrs := [svc] }, scopes := [{ scope := some { name := [108] }, items := [{ ts := 5, severity := [101] }] }] }]) := by
  decide +kernel

/-- For attributes of less than 32 bytes the hash used for filters is the one used for payloads. -/
theorem xx_short (k v : Bytes) (h : k.length + v.length < 31) : xx.H0 (pair k v) = xx.H (pair k v) :=
  Xx.sumZero_short (by simp [pair]; omega)

/-! ## C39: the filters that are not enforced -/

/-- A payload with one record. -/
def oneLog (x : LogRecord) (sc : Option InstrScope := none) : Data := .logs [{ scopes := [{ scope := sc, items := [x] }] }]
def oneSpan (x : Span) : Data := .traces [{ scopes := [{ items := [x] }] }]

/-- **C39** is false of the code, and with it C37 and C38 in general: (1) a filter on an attribute drops a record that has it and
(2) keeps one that does not, if its scope has; (3) a span id, (4) a parent id and (5) the trace id of a log record that are not
the ones asked for are accepted; (6) the parent id that is asked for is not; (7) an id that is not hexadecimal is ignored; (8) an
attribute of 32 bytes or more is not recognised. -/
theorem C39_refuted :
    (∃ kv : Bytes × Bytes, visit xx (visitor xx [.attr Pfx.attributes kv.1 kv.2] 0 9) (oneLog { ts := 5, attrs := [⟨kv.1, some (.str kv.2)⟩] }) = some (.logs [])) ∧
    (∃ (kv : Bytes × Bytes) (x : LogRecord), x.attrs = [] ∧
      visit xx (visitor xx [.attr Pfx.attributes kv.1 kv.2] 0 9) (oneLog x (some { attrs := [⟨kv.1, some (.str kv.2)⟩] })) =
        some (oneLog x (some { attrs := [⟨kv.1, some (.str kv.2)⟩] }))) ∧
    (∀ v x, (x : Span).start < 9 → visit xx (visitor xx [.base Pfx.spanId v] 0 9) (oneSpan x) = some (oneSpan x)) ∧
    (∃ id : Bytes, ∀ parent, visit xx (visitor xx [.base Pfx.parentSpanId (hexEncode id)] 0 9) (oneSpan { start := 5, stop := 6, spanId := some id, parentSpanId := parent }) =
      some (oneSpan { start := 5, stop := 6, spanId := some id, parentSpanId := parent })) ∧
    (∀ v x, (x : LogRecord).ts < 9 → visit xx (visitor xx [.base Pfx.traceId v] 0 9) (oneLog x) = some (oneLog x)) ∧
    (∃ id own : Bytes, visit xx (visitor xx [.base Pfx.parentSpanId (hexEncode id)] 0 9) (oneSpan { start := 5, stop := 6, spanId := some own, parentSpanId := some id }) =
      some (.traces [])) ∧
    (∀ v x, hexDecode v = none → (x : Span).start < 9 → visit xx (visitor xx [.base Pfx.traceId v] 0 9) (oneSpan x) = some (oneSpan x)) ∧
    (∃ k v : Bytes, k.length + v.length = 31 ∧ visit xx (visitor xx [.attr Pfx.resourceAttributes k v] 0 9)
      (.logs [{ resource := some { attrs := [⟨k, some (.str v)⟩] }, scopes := [{ items := [{ ts := 5 }] }] }]) = some (.logs [])) := by
  refine ⟨⟨([97], [98]), by decide +kernel⟩, ⟨([97], [98]), { ts := 5 }, rfl, by decide +kernel⟩, ?_, ⟨[7], ?_⟩, ?_, ⟨[7], [8], by decide +kernel⟩, ?_,
    ⟨[97], List.replicate 30 98, by decide, by decide +kernel⟩⟩
  · intro v x hx
    have e : visitor xx [.base Pfx.spanId v] 0 9 = { spanId := addId xx [] v, start := 0, stop := 9 } := rfl
    rw [e]
    simp [visit, visitTraces, visitResources, visitScopes, oneSpan, acceptResource, acceptScope, andThen, accept, matchAttr, select, acceptSpan,
      acceptTimestamp, hx]
  · intro parent
    have h1 : hexDecode (hexEncode [7]) = some [7] := by decide +kernel
    have e : visitor xx [.base Pfx.parentSpanId (hexEncode [7])] 0 9 = { parentSpanId := addId xx [] (hexEncode [7]), start := 0, stop := 9 } := rfl
    rw [e]
    simp [visit, visitTraces, visitResources, visitScopes, oneSpan, acceptResource, acceptScope, andThen, accept, matchAttr, select, acceptSpan,
      acceptTimestamp, addId, h1, Bm.add]
  · intro v x hx
    have e : visitor xx [.base Pfx.traceId v] 0 9 = { traceId := addId xx [] v, start := 0, stop := 9 } := rfl
    rw [e]
    simp [visit, visitLogs, visitResources, visitScopes, oneLog, acceptResource, acceptScope, andThen, accept, matchAttr, select, acceptLog,
      acceptTimestamp, hx]
  · intro v x hv hx
    have e : visitor xx [.base Pfx.traceId v] 0 9 = { traceId := addId xx [] v, start := 0, stop := 9 } := rfl
    rw [e]
    simp [visit, visitTraces, visitResources, visitScopes, oneSpan, acceptResource, acceptScope, andThen, accept, matchAttr, select, acceptSpan,
      acceptTimestamp, hx, addId, hv]

/-- **C39**, partial: filters on schemas, scope names and versions, resource and scope attributes, names, severities and (for spans)
trace ids are enforced: a record returned has the value asked for. (Missing: the filters of `C39_refuted`.) -/
theorem C39_enforced_partial {d out : Data} (hf : Faithful P fs d) (h : visit P (visitor P fs start stop) d = some out) :
    ∀ e ∈ entries out, ∃ e' ∈ entries d, e'.bare = e.bare ∧ EntryOk (actual fs) start stop e' := by
  classical
  intro e he
  have := trimmed_entries (C38_exact hf h)
  have hm : e.bare ∈ (entries out).map Entry.bare := List.mem_map_of_mem he
  rw [this] at hm
  obtain ⟨e', he', hb⟩ := List.mem_map.1 hm
  rw [List.mem_filter, decide_eq_true_eq] at he'
  exact ⟨e', he'.1, hb, he'.2⟩

/-! ## C48: what filtering loses -/

theorem visitScopes_schema {α : Type} {A : All} {sel : List α → Option (List α)} {ss out : List (ScopeG α)}
    (h : visitScopes P A sel ss = some out) : ∀ sm ∈ out, sm.schema = [] := by
  induction ss generalizing out with
  | nil => cases h; simp
  | cons sm rest ih =>
    unfold visitScopes at h
    split at h
    · cases h
    · exact ih h
    · split at h
      · cases h
      · split at h
        · cases h
        · rename_i os ho
          cases h
          split
          · exact ih ho
          · intro x hx
            rcases List.mem_cons.1 hx with rfl | hx
            · rfl
            · exact ih ho x hx

theorem visitResources_schema {α : Type} {A : All} {sel : List α → Option (List α)} {rs out : List (ResourceG α)}
    (h : visitResources P A sel rs = some out) : ∀ rm ∈ out, ∀ sm ∈ rm.scopes, sm.schema = [] := by
  induction rs generalizing out with
  | nil => cases h; simp
  | cons rm rest ih =>
    unfold visitResources at h
    split at h
    · cases h
    · exact ih h
    · split at h
      · cases h
      · rename_i scopes hsc
        split at h
        · cases h
        · rename_i os ho
          cases h
          split
          · exact ih ho
          · intro x hx
            rcases List.mem_cons.1 hx with rfl | hx
            · exact visitScopes_schema hsc
            · exact ih ho x hx

/-- **C48** is false of the code, for every payload and filter: all schema URLs of scopes are lost. -/
theorem C48_scope_schema_lost {A : All} {d out : Data} (h : visit P A d = some out) : ∀ e ∈ entries out, e.scopeSchema = [] := by
  have key : ∀ {α : Type} {recs : α → List Rec} {o : List (ResourceG α)}, (∀ rm ∈ o, ∀ sm ∈ rm.scopes, sm.schema = []) →
      ∀ e ∈ entriesOf recs o, e.scopeSchema = [] := by
    intro α recs o ho e he
    obtain ⟨rm, hrm, he⟩ := List.mem_flatMap.1 he
    obtain ⟨sm, hsm, he⟩ := List.mem_flatMap.1 he
    obtain ⟨x, hx, he⟩ := List.mem_flatMap.1 he
    obtain ⟨r, hr, rfl⟩ := List.mem_map.1 he
    exact ho rm hrm sm hsm
  cases d with
  | none => cases h; simp [entries]
  | logs rs =>
    simp only [visit] at h
    split at h
    · cases h
    · rename_i o ho; cases h; exact key (visitResources_schema ho)
  | traces rs =>
    simp only [visit] at h
    split at h
    · cases h
    · rename_i o ho; cases h; exact key (visitResources_schema ho)
  | metrics rs =>
    simp only [visit] at h
    split at h
    · cases h
    · rename_i o ho; cases h; exact key (visitResources_schema ho)

/-- **C48** refuted: the schema URL of a scope and the description of a metric are lost although nothing was filtered out; and
filtering the result again by the same schema drops everything. -/
theorem C48_refuted :
    visit xx (visitor xx [.base Pfx.scopeSchema [118]] 0 9)
      (.metrics [{ scopes := [{ schema := [118], items := [{ name := [109], rest := [100], data := some { kind := .gauge, points := [{ ts := 5 }] } }] }] }]) =
      some (.metrics [{ scopes := [{ schema := [], items := [{ name := [109], rest := [], data := some { kind := .gauge, points := [{ ts := 5 }] } }] }] }]) ∧
    visit xx (visitor xx [.base Pfx.scopeSchema [118]] 0 9)
      (.metrics [{ scopes := [{ schema := [], items := [{ name := [109], rest := [], data := some { kind := .gauge, points := [{ ts := 5 }] } }] }] }]) =
      some (.metrics []) := by
  constructor <;> decide +kernel

/-! ## C49: attributes that look alike -/

/-- **C49** is false of the code, for every hash function: `k=k'` with value `v` and `k` with value `k'=v` are not told apart. -/
theorem C49_confused (k k' v : Bytes) : attrHash P (k ++ [61] ++ k') v = attrHash P k (k' ++ [61] ++ v) := by
  simp [attrHash, pair]

/-- **C49**, partial: without a collision, keys without `=` are told apart (missing: keys with `=`). -/
theorem C49_apart_partial {k k' v v' : Bytes} (hk : (61 : UInt8) ∉ k) (hk' : (61 : UInt8) ∉ k')
    (hP : P.H0 (pair k v) = P.H (pair k' v') ↔ pair k v = pair k' v') : attrHash P k v = P.H (pair k' v') ↔ k = k' ∧ v = v' := by
  unfold attrHash
  rw [hP]
  clear hP
  constructor
  · intro h
    unfold pair at h
    induction k generalizing k' with
    | nil =>
      cases k' with
      | nil => simp only [List.nil_append, List.singleton_append, List.cons.injEq, true_and] at h; exact ⟨rfl, h⟩
      | cons x xs =>
        simp only [List.nil_append, List.cons_append, List.cons.injEq] at h
        exact absurd h.1 (fun e => hk' (e ▸ List.mem_cons_self))
    | cons y ys ih =>
      cases k' with
      | nil =>
        simp only [List.nil_append, List.cons_append, List.cons.injEq] at h
        exact absurd h.1 (fun e => hk (e ▸ List.mem_cons_self))
      | cons x xs =>
        simp only [List.cons_append, List.cons.injEq] at h
        obtain ⟨e1, e2⟩ := ih (fun hm => hk (List.mem_cons_of_mem _ hm)) (fun hm => hk' (List.mem_cons_of_mem _ hm)) h.2
        exact ⟨by rw [h.1, e1], e2⟩
  · rintro ⟨rfl, rfl⟩; rfl

example : attrHash xx [97] [98] = xx.H (pair [97] [98]) ↔ ([97] : Bytes) = [97] ∧ ([98] : Bytes) = [98] :=
  C49_apart_partial (by decide) (by decide) (iff_of_true (by decide +kernel) rfl)

/-- **C49** refuted: a filter on the resource attribute `a` = `b=c` returns a record of a resource that only has `a=b` = `c`. -/
theorem C49_refuted : visit xx (visitor xx [.attr Pfx.resourceAttributes [97] [98, 61, 99]] 0 9)
    (.logs [{ resource := some { attrs := [⟨[97, 61, 98], some (.str [99])⟩] }, scopes := [{ items := [{ ts := 5 }] }] }]) =
    some (.logs [{ resource := some { attrs := [⟨[97, 61, 98], some (.str [99])⟩] }, scopes := [{ items := [{ ts := 5 }] }] }]) := by
  decide +kernel

/-- **C50** is false of the code: an attribute without a value, anywhere a filter looks, panics. -/
theorem C50_refuted (k k' v : Bytes) : visit P (visitor P [.attr Pfx.resourceAttributes k v] 0 9)
    (.logs [{ resource := some { attrs := [⟨k', none⟩] }, scopes := [] }]) = none := by
  have e : visitor P [.attr Pfx.resourceAttributes k v] 0 9 = { resourceAttr := [attrHash P k v], start := 0, stop := 9 } := rfl
  rw [e]
  simp [visit, visitLogs, visitResources, acceptResource, andThen, accept, matchAttr, attrHashes, resAttrs]

end Verif.Vs
