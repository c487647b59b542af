import Verif.Lemmas.Batch
import Verif.Spec.Dict
import Verif.Spec.Otlp
/-!
# Facts about transform: every function emits a list of labels and a list of times
-/
namespace Verif.Tf
open Bt Tm

variable {σ : Type} (tr : Translator σ)

/-- Translate labels in order. -/
def transAll : List Label → σ × Bm → Option (σ × Bm)
  | [], x => some x
  | l :: ls, (st, ps) =>
    match tr st l.encode with
    | none => none
    | some (st', n) => transAll ls (st', ps.add n)

/-- Time bounds after a list of (start, end). -/
def bounds : List (Nat × Nat) → Nat × Nat → Nat × Nat
  | [], x => x
  | (a, b) :: rs, (mn, mx) => bounds rs (min (if mn = 0 then a else mn) a, max mx b)

def upd (c : Ctx σ) (rs : List (Nat × Nat)) (x : σ × Bm) : Ctx σ :=
  { c with st := x.1, positions := x.2, minTs := (bounds rs (c.minTs, c.maxTs)).1, maxTs := (bounds rs (c.minTs, c.maxTs)).2 }

def Emits (r : Int) (F : Ctx σ → Option (Ctx σ)) (ls : List Label) (rs : List (Nat × Nat)) : Prop :=
  ∀ c, c.resource = r → F c = (transAll tr ls (c.st, c.positions)).map (upd c rs)

theorem transAll_append (a b : List Label) (x : σ × Bm) :
    transAll tr (a ++ b) x = (transAll tr a x).bind (transAll tr b) := by
  induction a generalizing x with
  | nil => simp [transAll]
  | cons l ls ih =>
    obtain ⟨st, ps⟩ := x
    simp only [List.cons_append, transAll]
    cases tr st l.encode with
    | none => rfl
    | some y => exact ih _

theorem bounds_append (a b : List (Nat × Nat)) (x : Nat × Nat) : bounds (a ++ b) x = bounds b (bounds a x) := by
  induction a generalizing x with
  | nil => simp [bounds]
  | cons l ls ih => obtain ⟨p, q⟩ := l; obtain ⟨mn, mx⟩ := x; simp only [List.cons_append, bounds]; exact ih _

theorem upd_upd (c : Ctx σ) (rs rs' : List (Nat × Nat)) (x y : σ × Bm) :
    upd (upd c rs x) rs' y = upd c (rs ++ rs') y := by
  simp [upd, bounds_append]

theorem Emits.pure (r : Int) : Emits tr r some [] [] := by
  intro c _; simp [transAll, upd, bounds]

theorem Emits.bind {r : Int} {F G : Ctx σ → Option (Ctx σ)} {ls ls' rs rs'} (hF : Emits tr r F ls rs)
    (hG : Emits tr r G ls' rs') : Emits tr r (fun c => (F c).bind G) (ls ++ ls') (rs ++ rs') := by
  intro c hc
  simp only [hF c hc, transAll_append]
  cases h : transAll tr ls (c.st, c.positions) with
  | none => rfl
  | some x =>
    simp only [Option.map_some, Option.bind_some]
    rw [hG (upd c rs x) (by simpa [upd] using hc)]
    simp only [upd]
    cases transAll tr ls' (x.1, x.2) with
    | none => rfl
    | some y => simp only [Option.map_some]; congr 1; exact upd_upd c rs rs' x y

theorem Emits.label (r pfx : Int) (k v : Bytes) :
    Emits tr r (Tf.label tr pfx k v) [{ resource := r, pfx := pfx, key := k, value := v }] [] := by
  intro c hc
  subst hc
  simp only [Tf.label, transAll]
  cases tr c.st _ with
  | none => rfl
  | some y => simp [upd, bounds]

theorem Emits.ite {r : Int} {p : Prop} [Decidable p] {F : Ctx σ → Option (Ctx σ)} {ls rs} (hF : Emits tr r F ls rs) :
    Emits tr r (fun c => if p then F c else some c) (if p then ls else []) (if p then rs else []) := by
  by_cases h : p
  · simpa [h] using hF
  · simpa [h] using Emits.pure tr r

theorem Emits.foldlM {α : Type} {r : Int} {F : α → Ctx σ → Option (Ctx σ)} {ls : α → List Label} {rs : α → List (Nat × Nat)}
    (xs : List α) (h : ∀ x ∈ xs, Emits tr r (F x) (ls x) (rs x)) :
    Emits tr r (fun c => xs.foldlM (fun c x => F x c) c) (xs.flatMap ls) (xs.flatMap rs) := by
  induction xs with
  | nil => exact Emits.pure tr r
  | cons x xs ih =>
    have := Emits.bind tr (h x (by simp)) (ih fun y hy => h y (by simp [hy]))
    simpa [List.foldlM_cons] using this

theorem Emits.time {r : Int} (a b : Nat) : Emits tr r (fun c => some (range a b c)) [] [(a, b)] := by
  intro c _; simp [transAll, upd, bounds, range]

theorem timestamp_eq (a : Nat) (c : Ctx σ) : timestamp a c = range a a c := rfl

def attrLabels (r pfx : Int) (kvs : List KeyValue) : List Label :=
  kvs.flatMap fun kv => if kv.stringValue ≠ [] then [{ resource := r, pfx := pfx, key := kv.key, value := kv.stringValue }] else []

theorem Emits.attributes (r pfx : Int) (kvs : List KeyValue) :
    Emits tr r (attributes tr pfx kvs) (attrLabels r pfx kvs) [] := by
  have := Emits.foldlM tr (r := r) (F := fun kv c => if kv.stringValue ≠ [] then Tf.label tr pfx kv.key kv.stringValue c else some c)
    (ls := fun kv => if kv.stringValue ≠ [] then [{ resource := r, pfx := pfx, key := kv.key, value := kv.stringValue }] else [])
    (rs := fun kv => if kv.stringValue ≠ [] then [] else []) kvs (fun kv _ => Emits.ite tr (Emits.label tr r pfx _ _))
  have e : (kvs.flatMap fun kv => if kv.stringValue ≠ [] then ([] : List (Nat × Nat)) else []) = [] := by simp
  rw [e] at this
  exact this

def textLabels (r pfx : Int) (s : Bytes) : List Label := if s ≠ [] then [{ resource := r, pfx := pfx, key := s }] else []

theorem Emits.text (r pfx : Int) (s : Bytes) :
    Emits tr r (labelText tr pfx s) (textLabels r pfx s) [] := by
  have := Emits.ite tr (p := s ≠ []) (Emits.label tr r pfx s [])
  have e : (if s ≠ [] then ([] : List (Nat × Nat)) else []) = [] := by simp
  rw [e] at this
  exact this

def idLabels (r pfx : Int) (id : Option Bytes) : List Label :=
  match id with | some b => [{ resource := r, pfx := pfx, key := hexEncode b }] | none => []

theorem Emits.ident (r pfx : Int) (id : Option Bytes) :
    Emits tr r (labelId tr pfx id) (idLabels r pfx id) [] := by
  cases id with
  | none => exact Emits.pure tr r
  | some b => exact Emits.label tr r pfx _ _

def resourceLabels (r : Int) (schema : Bytes) (res : Option Resource) : List Label :=
  textLabels r Pfx.resourceSchema schema ++
    match res with | some x => attrLabels r Pfx.resourceAttributes x.attrs | none => []

theorem Emits.addResource (r : Int) (schema : Bytes) (res : Option Resource) :
    Emits tr r (addResource tr schema res) (resourceLabels r schema res) [] := by
  cases res with
  | none => exact Emits.bind tr (Emits.text tr r _ schema) (Emits.pure tr r)
  | some x => exact Emits.bind tr (Emits.text tr r _ schema) (Emits.attributes tr r _ x.attrs)

def scopeLabels (r : Int) (schema : Bytes) (s : Option InstrScope) : List Label :=
  textLabels r Pfx.scopeSchema schema ++
    match s with
    | some x => textLabels r Pfx.scopeName x.name ++ (textLabels r Pfx.scopeVersion x.version ++
        attrLabels r Pfx.scopeAttributes x.attrs)
    | none => []

theorem Emits.addScope (r : Int) (schema : Bytes) (s : Option InstrScope) :
    Emits tr r (addScope tr schema s) (scopeLabels r schema s) [] := by
  cases s with
  | none => exact Emits.bind tr (Emits.text tr r _ schema) (Emits.pure tr r)
  | some x =>
    exact Emits.bind tr (Emits.text tr r _ schema)
      (Emits.bind tr (Emits.text tr r _ x.name) (Emits.bind tr (Emits.text tr r _ x.version) (Emits.attributes tr r _ x.attrs)))

def groupLabels {α : Type} (r : Int) (item : α → List Label) (rm : ResourceG α) : List Label :=
  resourceLabels r rm.schema rm.resource ++
    rm.scopes.flatMap fun sm => scopeLabels r sm.schema sm.scope ++ sm.items.flatMap item

def groupTimes {α : Type} (item : α → List (Nat × Nat)) (rm : ResourceG α) : List (Nat × Nat) :=
  rm.scopes.flatMap fun sm => sm.items.flatMap item

theorem Emits.group {α : Type} {r : Int} {F : α → Ctx σ → Option (Ctx σ)} {ls rs} (h : ∀ x, Emits tr r (F x) (ls x) (rs x))
    (rm : ResourceG α) : Emits tr r (group tr F rm) (groupLabels r ls rm) (groupTimes rs rm) := by
  have h1 := fun sm : ScopeG α => Emits.bind tr (Emits.addScope tr r sm.schema sm.scope) (Emits.foldlM tr sm.items fun x _ => h x)
  have h2 := Emits.bind tr (Emits.addResource tr r rm.schema rm.resource) (Emits.foldlM tr rm.scopes fun sm _ => h1 sm)
  exact h2

def pointLabels (p : DataPoint) : List Label := attrLabels Res.metrics Pfx.attributes p.attrs

theorem Emits.addDataBase (p : DataPoint) :
    Emits tr Res.metrics (addDataBase tr p) (pointLabels p) [(p.ts, p.ts)] := by
  exact Emits.bind tr (Emits.time tr p.ts p.ts) (Emits.attributes tr Res.metrics Pfx.attributes p.attrs)

def metricPoints (m : Metric) : List DataPoint := match m.data with | some d => d.points | none => []

def metricLabels (m : Metric) : List Label :=
  { resource := Res.metrics, pfx := Pfx.name, key := m.name } :: (metricPoints m).flatMap pointLabels

theorem Emits.metric (m : Metric) :
    Emits tr Res.metrics (metric tr m) (metricLabels m) ((metricPoints m).flatMap fun p => [(p.ts, p.ts)]) := by
  obtain ⟨name, rest, d⟩ := m
  have hl := Emits.label tr Res.metrics Pfx.name name []
  cases d with
  | none => exact Emits.bind tr hl (Emits.pure tr Res.metrics)
  | some d =>
    obtain ⟨kind, temp, mono, ps⟩ := d
    have h := Emits.bind tr hl (Emits.foldlM tr ps fun p _ => Emits.addDataBase tr p)
    cases kind <;> exact h

def logLabels (x : LogRecord) : List Label :=
  textLabels Res.logs Pfx.logsLevel x.severity ++ (attrLabels Res.logs Pfx.attributes x.attrs ++
    (idLabels Res.logs Pfx.spanId x.spanId ++ idLabels Res.logs Pfx.traceId x.traceId))

theorem Emits.logRecord (x : LogRecord) : Emits tr Res.logs (logRecord tr x) (logLabels x) [(x.ts, x.ts)] := by
  have h := Emits.bind tr (Emits.time tr (r := Res.logs) x.ts x.ts) (Emits.bind tr (Emits.text tr Res.logs Pfx.logsLevel x.severity)
    (Emits.bind tr (Emits.attributes tr Res.logs Pfx.attributes x.attrs)
      (Emits.bind tr (Emits.ident tr Res.logs Pfx.spanId x.spanId) (Emits.ident tr Res.logs Pfx.traceId x.traceId))))
  exact h

def spanLabels (x : Span) : List Label :=
  textLabels Res.traces Pfx.name x.name ++ (idLabels Res.traces Pfx.traceId x.traceId ++
    (idLabels Res.traces Pfx.spanId x.spanId ++ (idLabels Res.traces Pfx.parentSpanId x.parentSpanId ++ [])))

theorem Emits.span (x : Span) : Emits tr Res.traces (span tr x) (spanLabels x) [(x.start, x.stop)] := by
  have h := Emits.bind tr (Emits.text tr Res.traces Pfx.name x.name)
    (Emits.bind tr (Emits.ident tr Res.traces Pfx.traceId x.traceId)
      (Emits.bind tr (Emits.ident tr Res.traces Pfx.spanId x.spanId)
        (Emits.bind tr (Emits.ident tr Res.traces Pfx.parentSpanId x.parentSpanId) (Emits.time tr x.start x.stop))))
  exact h

/-- All labels of a payload in the order they are written. -/
def dataLabels : Data → List Label
  | .metrics rs => rs.flatMap (groupLabels Res.metrics metricLabels)
  | .logs rs => rs.flatMap (groupLabels Res.logs logLabels)
  | .traces rs => rs.flatMap (groupLabels Res.traces spanLabels)
  | .none => []

/-- All times of a payload in the order they are read. -/
def dataTimes : Data → List (Nat × Nat)
  | .metrics rs => rs.flatMap (groupTimes fun m => (metricPoints m).flatMap fun p => [(p.ts, p.ts)])
  | .logs rs => rs.flatMap (groupTimes fun x => [(x.ts, x.ts)])
  | .traces rs => rs.flatMap (groupTimes fun x => [(x.start, x.stop)])
  | .none => []

/-- The resource in force after a payload. -/
def after (d : Data) (r : Int) : Int := d.signal.getD r

theorem data_eq (d : Data) (c : Ctx σ) :
    data tr d c = (transAll tr (dataLabels d) (c.st, c.positions)).map
      (upd { c with resource := after d c.resource } (dataTimes d)) := by
  cases d with
  | metrics rs => exact Emits.foldlM tr rs (fun rm _ => Emits.group tr (Emits.metric tr) rm) { c with resource := Res.metrics } rfl
  | logs rs => exact Emits.foldlM tr rs (fun rm _ => Emits.group tr (Emits.logRecord tr) rm) { c with resource := Res.logs } rfl
  | traces rs => exact Emits.foldlM tr rs (fun rm _ => Emits.group tr (Emits.span tr) rm) { c with resource := Res.traces } rfl
  | none => simp [data, dataLabels, dataTimes, transAll, upd, bounds, after, Data.signal]

/-- The resource label. -/
def resLabel (r : Int) : Label := { resource := r }

theorem processSample_eq (s : Sample) (c : Ctx σ) :
    processSample tr s c = (transAll tr (resLabel c.resource :: dataLabels s.data) (c.st, [])).map fun x =>
      let b := bounds (dataTimes s.data) (0, 0)
      ({ c with minTs := b.1, maxTs := b.2, positions := [], resource := after s.data c.resource, st := x.1,
                batch := c.batch.add s.id (toInt64 b.1) (some x.2) },
       { s with minTs := b.1, maxTs := b.2 }) := by
  simp only [processSample, initLabel, Tf.label, transAll, resLabel, Pfx.unknown, Option.bind_eq_bind]
  cases h : tr c.st _ with
  | none => rfl
  | some y =>
    simp only [Option.bind_some, data_eq]
    cases h2 : transAll tr (dataLabels s.data) (y.1, Bm.add [] y.2) with
    | none => simp
    | some z => simp [upd]

/-! ## Membership -/

theorem mem_attrLabels {r pfx : Int} {kvs : List KeyValue} {l : Label} :
    l ∈ attrLabels r pfx kvs ↔ AttrLabel r pfx kvs l := by
  simp only [attrLabels, List.mem_flatMap, AttrLabel]
  constructor
  · rintro ⟨kv, hkv, h⟩
    split at h
    · rename_i hne
      simp only [List.mem_singleton] at h
      refine ⟨kv, hkv, kv.stringValue, hne, ?_, h⟩
      unfold KeyValue.stringValue at hne ⊢
      split <;> simp_all
    · simp at h
  · rintro ⟨kv, hkv, s, hs, hv, rfl⟩
    refine ⟨kv, hkv, ?_⟩
    have : kv.stringValue = s := by simp [KeyValue.stringValue, hv]
    simp [this, hs]

theorem mem_textLabels {r pfx : Int} {s : Bytes} {l : Label} : l ∈ textLabels r pfx s ↔ TextLabel r pfx s l := by
  unfold textLabels TextLabel
  split <;> simp_all

theorem mem_idLabels {r pfx : Int} {s : Option Bytes} {l : Label} : l ∈ idLabels r pfx s ↔ IdLabel r pfx s l := by
  unfold idLabels IdLabel
  cases s <;> simp

theorem mem_groupLabels {α : Type} {r : Int} {item : α → List Label} {P : α → Label → Prop}
    (h : ∀ x l, l ∈ item x ↔ P x l) {rs : List (ResourceG α)} {l : Label} :
    l ∈ rs.flatMap (groupLabels r item) ↔ GroupLabel r P rs l := by
  simp only [List.mem_flatMap, GroupLabel]
  refine exists_congr fun rm => and_congr_right fun _ => ?_
  simp only [groupLabels, resourceLabels, List.mem_append, List.mem_flatMap, mem_textLabels, or_assoc]
  refine or_congr_right (or_congr ?_ (exists_congr fun sm => and_congr_right fun _ => ?_))
  · cases rm.resource <;> simp [mem_attrLabels]
  · simp only [scopeLabels, List.mem_append, mem_textLabels, or_assoc]
    refine or_congr_right (or_congr ?_ (exists_congr fun x => and_congr_right fun _ => h x l))
    cases sm.scope <;> simp [mem_attrLabels, mem_textLabels]

theorem mem_dataLabels {d : Data} {l : Label} : l ∈ dataLabels d ↔ Carries d l := by
  cases d with
  | metrics rs =>
    refine mem_groupLabels fun m l => ?_
    obtain ⟨name, rest, d⟩ := m
    cases d <;> simp [metricLabels, MetricLabel, metricPoints, pointLabels, mem_attrLabels, List.mem_flatMap]
  | logs rs =>
    refine mem_groupLabels fun x l => ?_
    simp [logLabels, LogLabel, mem_textLabels, mem_attrLabels, mem_idLabels]
  | traces rs =>
    refine mem_groupLabels fun x l => ?_
    simp [spanLabels, SpanLabel, mem_textLabels, mem_idLabels]
  | none => simp [dataLabels, Carries]

theorem mem_dataTimes {d : Data} {a b : Nat} : (a, b) ∈ dataTimes d ↔ HasTime d a b := by
  cases d with
  | metrics rs =>
    simp only [dataTimes, groupTimes, HasTime, List.mem_flatMap, List.mem_singleton, Prod.mk.injEq]
    constructor
    · rintro ⟨rm, h1, sm, h2, m, h3, p, h4, rfl, rfl⟩
      refine ⟨rfl, rm, h1, sm, h2, m, h3, ?_⟩
      unfold metricPoints at h4
      split at h4
      · rename_i d hd; exact ⟨d, hd, p, h4, rfl⟩
      · simp at h4
    · rintro ⟨rfl, rm, h1, sm, h2, m, h3, d, hd, p, h4, rfl⟩
      exact ⟨rm, h1, sm, h2, m, h3, p, by simp [metricPoints, hd, h4], rfl, rfl⟩
  | logs rs =>
    simp only [dataTimes, groupTimes, HasTime, List.mem_flatMap, List.mem_singleton, Prod.mk.injEq]
    constructor
    · rintro ⟨rm, h1, sm, h2, x, h3, rfl, rfl⟩; exact ⟨rfl, rm, h1, sm, h2, x, h3, rfl⟩
    · rintro ⟨rfl, rm, h1, sm, h2, x, h3, rfl⟩; exact ⟨rm, h1, sm, h2, x, h3, rfl, rfl⟩
  | traces rs =>
    simp only [dataTimes, groupTimes, HasTime, List.mem_flatMap, List.mem_singleton, Prod.mk.injEq]
    constructor
    · rintro ⟨rm, h1, sm, h2, x, h3, rfl, rfl⟩; exact ⟨rm, h1, sm, h2, x, h3, rfl, rfl⟩
    · rintro ⟨rm, h1, sm, h2, x, h3, rfl, rfl⟩; exact ⟨rm, h1, sm, h2, x, h3, rfl, rfl⟩
  | none => simp [dataTimes, HasTime]

/-! ## Translation with a lawful dictionary -/

theorem transAll_spec {D : Dict σ} (hD : D.Lawful) {ls : List Label} {st st' : σ} {ps ps' : Bm} (hg : D.Good st)
    (h : transAll D.tr ls (st, ps) = some (st', ps')) :
    D.Good st' ∧ (∀ a m, D.look st a = some m → D.look st' a = some m) ∧
    (∀ a m, D.look st' a = some m → D.look st a = some m ∨ ∃ l ∈ ls, a = l.encode) ∧
    (∀ l ∈ ls, ∃ n, D.look st' l.encode = some n) ∧
    (∀ n, n ∈ ps' ↔ n ∈ ps ∨ ∃ l ∈ ls, D.look st' l.encode = some n) := by
  induction ls generalizing st ps with
  | nil => simp only [transAll, Option.some.injEq, Prod.mk.injEq] at h; obtain ⟨rfl, rfl⟩ := h; simp [hg]
  | cons l ls ih =>
    simp only [transAll] at h
    cases ht : D.tr st l.encode with
    | none => rw [ht] at h; cases h
    | some y =>
      obtain ⟨st1, n1⟩ := y
      rw [ht] at h
      obtain ⟨g, k, o, e, m⟩ := ih (hD.good hg ht) h
      have hl : D.look st' l.encode = some n1 := k _ _ (hD.hit hg ht)
      refine ⟨g, fun a x hx => k _ _ (hD.keep hg ht hx), fun a x hx => ?_, ?_, fun n => ?_⟩
      · rcases o a x hx with h1 | ⟨l', hl', e'⟩
        · rcases hD.only hg ht h1 with h2 | h2
          · exact .inr ⟨l, by simp, h2⟩
          · exact .inl h2
        · exact .inr ⟨l', by simp [hl'], e'⟩
      · intro l' hl'
        rcases List.mem_cons.1 hl' with rfl | hl'
        · exact ⟨n1, hl⟩
        · exact e l' hl'
      · rw [m, Bm.mem_add]
        simp only [List.mem_cons, exists_eq_or_imp, hl, Option.some.injEq, eq_comm (a := n1)]
        constructor
        · rintro ((h | h) | h)
          · exact .inr (.inl h)
          · exact .inl h
          · exact .inr (.inr h)
        · rintro (h | h | h)
          · exact .inl (.inr h)
          · exact .inl (.inl h)
          · exact .inr h

/-- The entry of a sample in the batch, and the sample with its time bounds. `r` is the resource in force before it. -/
structure EntryOf (D : Dict σ) (st : σ) (r : Int) (s s' : Sample) (e : Entry) : Prop where
  id : e.id = s.id
  q : e.q = ymdh (toInt64 s'.minTs)
  labels : ∃ ps, e.labels = some ps ∧ ps.Ok ∧
    ∀ n, n ∈ ps ↔ ∃ l, (Carries s.data l ∨ l = resLabel r) ∧ D.look st l.encode = some n
  known : ∀ l, (Carries s.data l ∨ l = resLabel r) → ∃ n, D.look st l.encode = some n
  sample : s' = { s with minTs := (bounds (dataTimes s.data) (0, 0)).1, maxTs := (bounds (dataTimes s.data) (0, 0)).2 }

theorem EntryOf.mono {D : Dict σ} {st st' : σ} {r : Int} {s s' : Sample} {e : Entry} (h : EntryOf D st r s s' e)
    (hk : ∀ a m, D.look st a = some m → D.look st' a = some m) : EntryOf D st' r s s' e := by
  obtain ⟨ps, h1, h2, h3⟩ := h.labels
  refine ⟨h.id, h.q, ⟨ps, h1, h2, fun n => ?_⟩, fun l hl => ?_, h.sample⟩
  · rw [h3]
    refine exists_congr fun l => and_congr_right fun hl => ?_
    obtain ⟨m, hm⟩ := h.known l hl
    rw [hm, hk _ _ hm]
  · obtain ⟨m, hm⟩ := h.known l hl
    exact ⟨m, hk _ _ hm⟩

theorem transAll_ok {ls : List Label} {st st' : σ} {ps ps' : Bm} (hok : ps.Ok)
    (h : transAll tr ls (st, ps) = some (st', ps')) : ps'.Ok := by
  induction ls generalizing st ps with
  | nil => simp only [transAll, Option.some.injEq, Prod.mk.injEq] at h; obtain ⟨-, rfl⟩ := h; exact hok
  | cons l ls ih =>
    simp only [transAll] at h
    cases ht : tr st l.encode with
    | none => rw [ht] at h; cases h
    | some y => rw [ht] at h; exact ih (Bm.add_ok hok _) h

theorem processSample_spec {D : Dict σ} (hD : D.Lawful) {s s' : Sample} {c c' : Ctx σ} (hg : D.Good c.st)
    (h : processSample D.tr s c = some (c', s')) :
    D.Good c'.st ∧ (∀ a m, D.look c.st a = some m → D.look c'.st a = some m) ∧
    (∀ a m, D.look c'.st a = some m → D.look c.st a = some m ∨ ∃ l, (Carries s.data l ∨ l = resLabel c.resource) ∧ a = l.encode) ∧
    c'.resource = after s.data c.resource ∧
    ∃ e, c'.batch = { c.batch with entries := c.batch.entries ++ [e] } ∧ EntryOf D c'.st c.resource s s' e := by
  rw [processSample_eq] at h
  cases ht : transAll D.tr (resLabel c.resource :: dataLabels s.data) (c.st, []) with
  | none => rw [ht] at h; cases h
  | some x =>
    obtain ⟨st', ps'⟩ := x
    rw [ht] at h
    simp only [Option.map_some, Option.some.injEq, Prod.mk.injEq] at h
    obtain ⟨rfl, rfl⟩ := h
    obtain ⟨g, k, o, kn, m⟩ := transAll_spec hD hg ht
    have hmem : ∀ l, l ∈ resLabel c.resource :: dataLabels s.data ↔ (Carries s.data l ∨ l = resLabel c.resource) := by
      intro l; rw [List.mem_cons, mem_dataLabels]; exact Or.comm
    refine ⟨g, k, fun a x hx => ?_, rfl, _, rfl, rfl, rfl, ⟨ps', rfl, transAll_ok D.tr List.Pairwise.nil ht, fun n => ?_⟩, fun l hl => ?_, rfl⟩
    · rcases o a x hx with h | ⟨l, hl, e⟩
      · exact .inl h
      · exact .inr ⟨l, (hmem l).1 hl, e⟩
    · rw [m]
      simp only [List.not_mem_nil, false_or]
      exact exists_congr fun l => and_congr_left fun _ => hmem l
    · exact kn l ((hmem l).2 hl)

/-- What processing a list of samples, with resource `r` in force at first, leaves behind. -/
def Processed (D : Dict σ) (st : σ) : Int → List Sample → List Sample → List Entry → Prop
  | _, [], [], [] => True
  | r, s :: ss, s' :: ss', e :: es => EntryOf D st r s s' e ∧ Processed D st (after s.data r) ss ss' es
  | _, _, _, _ => False

theorem processAll_spec {D : Dict σ} (hD : D.Lawful) {ss ss' : List Sample} {c c' : Ctx σ} (hg : D.Good c.st)
    (h : processAll D.tr ss c = some (c', ss')) :
    D.Good c'.st ∧ (∀ a m, D.look c.st a = some m → D.look c'.st a = some m) ∧
    c'.resource = ss.foldl (fun r s => after s.data r) c.resource ∧
    ∃ es, c'.batch = { c.batch with entries := c.batch.entries ++ es } ∧ Processed D c'.st c.resource ss ss' es := by
  induction ss generalizing c ss' with
  | nil =>
    simp only [processAll, Option.some.injEq, Prod.mk.injEq] at h
    obtain ⟨rfl, rfl⟩ := h
    exact ⟨hg, fun _ _ h => h, rfl, [], by simp, trivial⟩
  | cons s ss ih =>
    simp only [processAll, Option.bind_eq_bind, Option.bind_eq_some_iff] at h
    obtain ⟨⟨c1, s1⟩, h1, ⟨c2, ss2⟩, h2, h3⟩ := h
    simp only [Option.some.injEq, Prod.mk.injEq] at h3
    obtain ⟨rfl, rfl⟩ := h3
    obtain ⟨g1, k1, -, r1, e, b1, he⟩ := processSample_spec hD hg h1
    obtain ⟨g2, k2, r2, es, b2, hes⟩ := ih g1 h2
    refine ⟨g2, fun a m hm => k2 _ _ (k1 _ _ hm), by rw [r2, r1]; rfl, e :: es, ?_, he.mono k2, r1 ▸ hes⟩
    rw [b2, b1]; simp

theorem after_all (xs : List Sample) (r : Int) :
    xs.foldl (fun r s => after s.data r) r = (xs.filterMap (·.data.signal)).getLast?.getD r := by
  induction xs generalizing r with
  | nil => rfl
  | cons y ys ih =>
    rw [List.foldl_cons, ih]
    cases hy : y.data.signal with
    | none => simp [hy, after]
    | some z =>
      simp only [after, hy, Option.getD_some, List.filterMap_cons]
      cases hz : (ys.filterMap (·.data.signal)) with
      | nil => simp
      | cons a as => simp [List.getLast?_cons]

/-! ## Time bounds -/

theorem bounds_max (rs : List (Nat × Nat)) (mn mx : Nat) :
    mx ≤ (bounds rs (mn, mx)).2 ∧ (∀ a b, (a, b) ∈ rs → b ≤ (bounds rs (mn, mx)).2) ∧
    ((bounds rs (mn, mx)).2 = mx ∨ ∃ a, (a, (bounds rs (mn, mx)).2) ∈ rs) := by
  induction rs generalizing mn mx with
  | nil => simp [bounds]
  | cons x rs ih =>
    obtain ⟨a, b⟩ := x
    simp only [bounds]
    obtain ⟨h1, h2, h3⟩ := ih (min (if mn = 0 then a else mn) a) (max mx b)
    refine ⟨by omega, ?_, ?_⟩
    · intro a' b' h
      rcases List.mem_cons.1 h with h | h
      · cases h; omega
      · exact h2 _ _ h
    · rcases h3 with h3 | ⟨a', h3⟩
      · by_cases hm : mx ≤ b
        · right; exact ⟨a, by rw [h3, Nat.max_eq_right hm]; simp⟩
        · left; omega
      · exact .inr ⟨a', by simp [h3]⟩

theorem bounds_min_mem (rs : List (Nat × Nat)) (mn mx : Nat) :
    (bounds rs (mn, mx)).1 = mn ∨ ∃ b, ((bounds rs (mn, mx)).1, b) ∈ rs := by
  induction rs generalizing mn mx with
  | nil => simp [bounds]
  | cons x rs ih =>
    obtain ⟨a, b⟩ := x
    simp only [bounds]
    rcases ih (min (if mn = 0 then a else mn) a) (max mx b) with h | ⟨b', h⟩
    · rw [h]
      by_cases hm : mn = 0
      · right; simp only [hm, if_true, Nat.min_self]; exact ⟨b, by simp⟩
      · simp only [hm, if_false]
        by_cases hle : mn ≤ a
        · left; omega
        · right; exact ⟨b, by rw [Nat.min_eq_right (by omega)]; simp⟩
    · exact .inr ⟨b', by simp [h]⟩

theorem bounds_min_mem' (rs : List (Nat × Nat)) (hne : rs ≠ []) (mx : Nat) :
    ∃ b, ((bounds rs (0, mx)).1, b) ∈ rs := by
  cases rs with
  | nil => exact absurd rfl hne
  | cons x rs =>
    obtain ⟨a, b⟩ := x
    simp only [bounds, if_true, Nat.min_self]
    rcases bounds_min_mem rs a (max mx b) with h | ⟨b', h⟩
    · exact ⟨b, by rw [h]; simp⟩
    · exact ⟨b', by simp [h]⟩

theorem bounds_min_le (rs : List (Nat × Nat)) (mn mx : Nat) (hpos : ∀ a b, (a, b) ∈ rs → 0 < a) :
    (0 < mn → (bounds rs (mn, mx)).1 ≤ mn) ∧ ∀ a b, (a, b) ∈ rs → (bounds rs (mn, mx)).1 ≤ a := by
  induction rs generalizing mn mx with
  | nil => simp [bounds]
  | cons x rs ih =>
    obtain ⟨a, b⟩ := x
    simp only [bounds]
    have ha := hpos a b (by simp)
    obtain ⟨h1, h2⟩ := ih (min (if mn = 0 then a else mn) a) (max mx b) fun a b h => hpos a b (by simp [h])
    have hm : 0 < min (if mn = 0 then a else mn) a := by split <;> omega
    have h1 := h1 hm
    refine ⟨fun h => ?_, fun a' b' h => ?_⟩
    · rw [if_neg (by omega)] at *; omega
    · rcases List.mem_cons.1 h with h | h
      · cases h; omega
      · exact h2 _ _ h

end Verif.Tf
