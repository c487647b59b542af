import Verif.Spec.SelfDetail
import Verif.Props.Self
/-!
# C78: what the exported telemetry of the database itself tells

An exported span holds what the span holds, field by field (`C78_held`), and two spans have the same exported form exactly if they are
the same in every field that is exported (`C78_span`); likewise data points (`C78_point_held`, `C78_point`) and whole metrics
(`C78_metric`). `C78_lost`: what is not exported. `C78_wrapped`: a time the field cannot hold is exported as another one.
-/
namespace Verif.Sf

theorem unixNano_as {t : Int} (h : TimeOk t) : TimeAs t (unixNano t) := by
  unfold TimeOk at h; unfold TimeAs unixNano
  split <;> omega

theorem unixNano_inj {t u : Int} (ht : TimeOk t) (hu : TimeOk u) : unixNano t = unixNano u ↔ t = u := by
  unfold TimeOk at *; unfold unixNano; omega

theorem toUint32_as {n : Int} (h : CountOk n) : (toUint32 n : Int) = n := by
  unfold CountOk at h; unfold toUint32; omega

theorem toUint32_inj {n m : Int} (hn : CountOk n) (hm : CountOk m) : toUint32 n = toUint32 m ↔ n = m := by
  unfold CountOk at *; unfold toUint32; omega

theorem status_as (c : Nat) : StatusAs c (status c) := by unfold StatusAs status; grind

theorem status_same (a b : Nat) : status a = status b ↔ SameStatus a b := by unfold status SameStatus; grind

theorem kind_as (k : Int) : KindAs k (spanKind k) := by unfold KindAs spanKind; grind

theorem kind_same (a b : Int) : spanKind a = spanKind b ↔ SameKind a b := by
  have h := kind_as a
  have h' := kind_as b
  unfold KindAs at h h'
  unfold SameKind
  omega

theorem map_forall₂ {σ τ : Type} {R : σ → τ → Prop} {g : σ → τ} {l : List σ} (h : ∀ x ∈ l, R x (g x)) : List.Forall₂ R l (l.map g) := by
  induction l with
  | nil => exact .nil
  | cons x l ih => exact .cons (h x (by simp)) (ih fun y hy => h y (by simp [hy]))

theorem map_eq_iff {σ τ : Type} {R : σ → σ → Prop} {g : σ → τ} {P : σ → Prop} (hR : ∀ x y, P x → P y → (g x = g y ↔ R x y)) :
    ∀ {l l' : List σ}, (∀ x ∈ l, P x) → (∀ x ∈ l', P x) → (l.map g = l'.map g ↔ List.Forall₂ R l l')
  | [], [], _, _ => by simp
  | [], _ :: _, _, _ => by simp
  | _ :: _, [], _, _ => by simp
  | x :: l, y :: l', h, h' => by
    simp only [List.map_cons, List.cons.injEq, List.forall₂_cons]
    rw [hR x y (h x (by simp)) (h' y (by simp)), map_eq_iff hR (fun z hz => h z (by simp [hz])) (fun z hz => h' z (by simp [hz]))]

theorem keyValues_as (l : List Attr) : AttrsAs l (keyValues l) := map_forall₂ fun _ _ => ⟨rfl, rfl⟩

theorem keyValues_same (a b : List Attr) : keyValues a = keyValues b ↔ SameAttrs a b := by
  refine map_eq_iff (P := fun _ => True) (fun x y _ _ => ?_) (fun _ _ => trivial) (fun _ _ => trivial)
  rw [Prod.mk.injEq, C66_values]; rfl

theorem events_as {l : List EventIn} (h : ∀ e ∈ l, TimeOk e.time ∧ CountOk e.dropped) : List.Forall₂ EventAs l (spanEvents l) :=
  map_forall₂ fun x hx => ⟨rfl, unixNano_as (h x hx).1, keyValues_as _, toUint32_as (h x hx).2⟩

theorem events_same {a b : List EventIn} (ha : ∀ e ∈ a, TimeOk e.time ∧ CountOk e.dropped) (hb : ∀ e ∈ b, TimeOk e.time ∧ CountOk e.dropped) :
    spanEvents a = spanEvents b ↔ List.Forall₂ SameEvent a b := by
  refine map_eq_iff (P := fun e : EventIn => TimeOk e.time ∧ CountOk e.dropped) (fun x y hx hy => ?_) ha hb
  rw [EventOut.mk.injEq, unixNano_inj hx.1 hy.1, keyValues_same, toUint32_inj hx.2 hy.2]
  exact ⟨fun ⟨h1, h2, h3, h4⟩ => ⟨h1, h2, h3, h4⟩, fun ⟨h1, h2, h3, h4⟩ => ⟨h1, h2, h3, h4⟩⟩

theorem links_as {l : List LinkIn} (h : ∀ e ∈ l, CountOk e.dropped) : List.Forall₂ LinkAs l (links l) :=
  map_forall₂ fun x hx => ⟨rfl, rfl, keyValues_as _, toUint32_as (h x hx)⟩

theorem links_same {a b : List LinkIn} (ha : ∀ e ∈ a, CountOk e.dropped) (hb : ∀ e ∈ b, CountOk e.dropped) :
    links a = links b ↔ List.Forall₂ SameLink a b := by
  refine map_eq_iff (P := fun e : LinkIn => CountOk e.dropped) (fun x y hx hy => ?_) ha hb
  rw [LinkOut.mk.injEq, keyValues_same, toUint32_inj hx hy]
  exact ⟨fun ⟨h1, h2, h3, h4⟩ => ⟨h1, h2, h3, h4⟩, fun ⟨h1, h2, h3, h4⟩ => ⟨h1, h2, h3, h4⟩⟩

theorem zeros_iff {p : Bytes} (h : p.length = 8) : p.all (· == 0) = true ↔ p = List.replicate 8 0 := by
  rw [← h, List.eq_replicate_iff]
  simp

theorem parent_as {p : Bytes} (h : p.length = 8) :
    (p = List.replicate 8 0 ∧ (if p.all (· == 0) then none else some p) = none) ∨
      (p ≠ List.replicate 8 0 ∧ (if p.all (· == 0) then none else some p) = some p) := by
  by_cases hz : p.all (· == 0) = true
  · rw [if_pos hz]; exact .inl ⟨(zeros_iff h).mp hz, rfl⟩
  · rw [if_neg hz]; exact .inr ⟨fun e => hz ((zeros_iff h).mpr e), rfl⟩

theorem parent_same {p q : Bytes} (hp : p.length = 8) (hq : q.length = 8) :
    (if p.all (· == 0) then none else some p) = (if q.all (· == 0) then none else some q) ↔ p = q := by
  have h1 := parent_as hp
  have h2 := parent_as hq
  grind

/-- **C78**: an exported span holds what the span holds. -/
theorem C78_held {s : SpanDetail} (h : s.Ok) : SpanAs s (span s) where
  traceId := rfl
  spanId := rfl
  traceState := rfl
  parent := parent_as h.parent
  kind := kind_as _
  name := rfl
  start := unixNano_as h.times.1
  stop := unixNano_as h.times.2
  status := status_as _
  statusText := rfl
  attrs := keyValues_as _
  events := events_as h.events
  links := links_as h.links
  dropped := ⟨toUint32_as h.counts.1, toUint32_as h.counts.2.1, toUint32_as h.counts.2.2⟩

/-- **C78**: two spans have the same exported form exactly if they are the same in every field that is exported. -/
theorem C78_span {a b : SpanDetail} (ha : a.Ok) (hb : b.Ok) : span a = span b ↔ SameSpan a b := by
  unfold span
  rw [SpanOut.mk.injEq, parent_same ha.parent hb.parent, kind_same, unixNano_inj ha.times.1 hb.times.1, unixNano_inj ha.times.2 hb.times.2,
    status_same, keyValues_same, events_same ha.events hb.events, links_same ha.links hb.links, toUint32_inj ha.counts.1 hb.counts.1,
    toUint32_inj ha.counts.2.1 hb.counts.2.1, toUint32_inj ha.counts.2.2 hb.counts.2.2]
  exact ⟨fun ⟨h1, h2, h3, h4, h5, h6, h7, h8, h9, h10, h11, h12, h13, h14⟩ => ⟨h1, h2, h3, h4, h5, h6, h7, h8, h9, h10, h11, h12, h13, h14⟩,
    fun ⟨h1, h2, h3, h4, h5, h6, h7, h8, h9, h10, h11, h12, h13, h14⟩ => ⟨h1, h2, h3, h4, h5, h6, h7, h8, h9, h10, h11, h12, h13, h14⟩⟩

/-! ## Data points -/

theorem ptTime_as {t : Int} (h : PtTimeOk t) : PtTimeAs t (timeUnixNano t) := by
  unfold PtTimeAs timeUnixNano
  by_cases hz : t = zeroTime
  · rw [if_pos hz]; exact .inl ⟨hz, rfl⟩
  · rw [if_neg hz]; exact .inr ⟨hz, unixNano_as (h.resolve_left hz)⟩

theorem ptTime_same {t u : Int} (ht : PtTimeOk t) (hu : PtTimeOk u) : timeUnixNano t = timeUnixNano u ↔ SameTime t u := by
  have ok : ∀ {t}, PtTimeOk t → TimeOk (if t = zeroTime then 0 else t) := by
    intro t h
    by_cases hz : t = zeroTime
    · rw [if_pos hz]; unfold TimeOk; omega
    · rw [if_neg hz]; exact h.resolve_left hz
  have eq : ∀ t, timeUnixNano t = unixNano (if t = zeroTime then 0 else t) := by
    intro t; unfold timeUnixNano
    by_cases hz : t = zeroTime
    · rw [if_pos hz, if_pos hz]; rfl
    · rw [if_neg hz, if_neg hz]
  rw [eq, eq, unixNano_inj (ok ht) (ok hu)]; rfl

theorem exemplars_as {l : List Exemplar} (h : ExOk l) : List.Forall₂ ExemplarAs l (exemplars l) :=
  map_forall₂ fun x hx => ⟨keyValues_as _, ptTime_as (h x hx), rfl, rfl, rfl⟩

theorem exemplars_same {a b : List Exemplar} (ha : ExOk a) (hb : ExOk b) : exemplars a = exemplars b ↔ List.Forall₂ SameExemplar a b := by
  refine map_eq_iff (P := fun e : Exemplar => PtTimeOk e.time) (fun x y hx hy => ?_) ha hb
  rw [ExemplarOut.mk.injEq, keyValues_same, ptTime_same hx hy]
  exact ⟨fun ⟨h1, h2, h3, h4, h5⟩ => ⟨h1, h2, h3, h4, h5⟩, fun ⟨h1, h2, h3, h4, h5⟩ => ⟨h1, h2, h3, h4, h5⟩⟩

theorem base_as {b : Base} (h : b.Ok) : BaseAs b (base b) := ⟨keyValues_as _, ptTime_as h.1, ptTime_as h.2⟩

theorem base_same {a b : Base} (ha : a.Ok) (hb : b.Ok) : base a = base b ↔ SameBase a b := by
  unfold base
  rw [BaseOut.mk.injEq, keyValues_same, ptTime_same ha.1 hb.1, ptTime_same ha.2 hb.2]
  exact ⟨fun ⟨h1, h2, h3⟩ => ⟨h1, h2, h3⟩, fun ⟨h1, h2, h3⟩ => ⟨h1, h2, h3⟩⟩

variable {f : Int → Nat}

theorem num_as (n : Num) : NumAs f n (toFloat f n) := by
  cases n with
  | int i => exact .inl ⟨i, rfl, rfl⟩
  | float b => exact .inr rfl

theorem opt_as (n : Option Num) : OptAs f n (n.map (toFloat f)) := by
  cases n with
  | none => exact .inl ⟨rfl, rfl⟩
  | some n => exact .inr ⟨n, _, rfl, rfl, num_as n⟩

theorem opt_same (a b : Option Num) : a.map (toFloat f) = b.map (toFloat f) ↔ SameOpt f a b := by
  cases a <;> cases b <;> simp [SameOpt, SameNum]

/-- **C78**: an exported data point holds what the data point holds. -/
theorem C78_point_held {p : Pt} (h : p.Ok) : PtAs f p (point f p) := by
  cases p with
  | number b v ex => exact .number (base_as h.1) (exemplars_as h.2)
  | hist b n bounds counts lo hi sum ex => exact .hist (base_as h.1) (opt_as _) (opt_as _) (num_as _) (exemplars_as h.2)
  | exp b n lo hi sum scale zc zt pos neg ex => exact .exp (base_as h.1) (opt_as _) (opt_as _) (num_as _) (exemplars_as h.2)
  | summary b n sum qs =>
    have : qs.map (fun q => (q.1, q.2)) = qs := by simp
    simp only [point, this]
    exact .summary (base_as h)

/-- **C78**: two data points have the same exported form exactly if they say the same. -/
theorem C78_point {a b : Pt} (ha : a.Ok) (hb : b.Ok) : point f a = point f b ↔ SamePt f a b := by
  constructor
  · intro h
    cases a <;> cases b <;> simp only [point, PtOut.number.injEq, PtOut.hist.injEq, PtOut.exp.injEq, PtOut.summary.injEq, reduceCtorEq] at h
    · obtain ⟨h1, rfl, h3⟩ := h
      exact .number ((base_same ha.1 hb.1).mp h1) ((exemplars_same ha.2 hb.2).mp h3)
    · obtain ⟨h1, rfl, rfl, rfl, h5, h6, h7, h8⟩ := h
      exact .hist ((base_same ha.1 hb.1).mp h1) ((opt_same _ _).mp h5) ((opt_same _ _).mp h6) h7 ((exemplars_same ha.2 hb.2).mp h8)
    · obtain ⟨h1, rfl, h3, h4, h5, rfl, rfl, rfl, rfl, h10⟩ := h
      exact .exp ((base_same ha.1 hb.1).mp h1) ((opt_same _ _).mp h3) ((opt_same _ _).mp h4) h5 ((exemplars_same ha.2 hb.2).mp h10)
    · obtain ⟨h1, rfl, rfl, h4⟩ := h
      have : ∀ l : List (Nat × Nat), l.map (fun q => (q.1, q.2)) = l := fun l => by simp
      rw [this, this] at h4
      subst h4
      exact .summary ((base_same ha hb).mp h1)
  · intro h
    cases h with
    | number h1 h3 => simp only [point, (base_same ha.1 hb.1).mpr h1, (exemplars_same ha.2 hb.2).mpr h3]
    | hist h1 h5 h6 h7 h8 =>
      simp only [point, (base_same ha.1 hb.1).mpr h1, (opt_same _ _).mpr h5, (opt_same _ _).mpr h6, show toFloat f _ = toFloat f _ from h7,
        (exemplars_same ha.2 hb.2).mpr h8]
    | exp h1 h5 h6 h7 h8 =>
      simp only [point, (base_same ha.1 hb.1).mpr h1, (opt_same _ _).mpr h5, (opt_same _ _).mpr h6, show toFloat f _ = toFloat f _ from h7,
        (exemplars_same ha.2 hb.2).mpr h8]
    | summary h1 => simp only [point, (base_same ha hb).mpr h1]

theorem temporality_inj {t t' o : Nat} (h : temporality t = .ok o) (h' : temporality t' = .ok o) : t = t' := by
  unfold temporality at *; grind

/-- The points of a metric as exported, or not at all. -/
theorem points_same {a b : List Pt} (ha : ∀ p ∈ a, p.Ok) (hb : ∀ p ∈ b, p.Ok) : a.map (point f) = b.map (point f) ↔ List.Forall₂ (SamePt f) a b :=
  map_eq_iff (P := Pt.Ok) (fun _ _ hx hy => C78_point hx hy) ha hb

theorem map_ok {σ τ : Type} {x : Except Err σ} {g : σ → τ} {o : τ} (h : x.map g = .ok o) : ∃ y, x = .ok y ∧ o = g y := by
  cases x with
  | error e => exact nomatch h
  | ok y => exact ⟨y, rfl, by cases h; rfl⟩

/-- The exported forms of two aggregations are the same exactly if the aggregations say the same. -/
theorem outData_same {a b : Agg Pt} {o o' : OData PtOut} (ha : outData (point f) a = .ok o) (hb : outData (point f) b = .ok o')
    (oka : ∀ p ∈ a.points, p.Ok) (okb : ∀ p ∈ b.points, p.Ok) : o = o' ↔ SameAgg f a b := by
  cases a with
  | unknown => exact nomatch ha
  | gauge a =>
    cases ha
    cases b with
    | unknown => exact nomatch hb
    | gauge b =>
      cases hb
      rw [OData.gauge.injEq, points_same (a := a) (b := b) oka okb]
      exact ⟨.gauge, fun | .gauge h => h⟩
    | summary b => cases hb; exact ⟨nofun, nofun⟩
    | sum t m b => obtain ⟨_, _, rfl⟩ := map_ok hb; exact ⟨nofun, nofun⟩
    | hist t b => obtain ⟨_, _, rfl⟩ := map_ok hb; exact ⟨nofun, nofun⟩
    | expHist t b => obtain ⟨_, _, rfl⟩ := map_ok hb; exact ⟨nofun, nofun⟩
  | summary a =>
    cases ha
    cases b with
    | unknown => exact nomatch hb
    | summary b =>
      cases hb
      rw [OData.summary.injEq, points_same (a := a) (b := b) oka okb]
      exact ⟨.summary, fun | .summary h => h⟩
    | gauge b => cases hb; exact ⟨nofun, nofun⟩
    | sum t m b => obtain ⟨_, _, rfl⟩ := map_ok hb; exact ⟨nofun, nofun⟩
    | hist t b => obtain ⟨_, _, rfl⟩ := map_ok hb; exact ⟨nofun, nofun⟩
    | expHist t b => obtain ⟨_, _, rfl⟩ := map_ok hb; exact ⟨nofun, nofun⟩
  | sum t m a =>
    obtain ⟨x, hx, rfl⟩ := map_ok ha
    cases b with
    | unknown => exact nomatch hb
    | sum t' m' b =>
      obtain ⟨y, hy, rfl⟩ := map_ok hb
      rw [OData.sum.injEq, points_same (a := a) (b := b) oka okb]
      constructor
      · rintro ⟨rfl, rfl, h⟩
        cases temporality_inj hx hy
        exact .sum h
      · rintro (_ | h)
        rw [hx] at hy
        exact ⟨by cases hy; rfl, rfl, h⟩
    | gauge b => cases hb; exact ⟨nofun, nofun⟩
    | summary b => cases hb; exact ⟨nofun, nofun⟩
    | hist t b => obtain ⟨_, _, rfl⟩ := map_ok hb; exact ⟨nofun, nofun⟩
    | expHist t b => obtain ⟨_, _, rfl⟩ := map_ok hb; exact ⟨nofun, nofun⟩
  | hist t a =>
    obtain ⟨x, hx, rfl⟩ := map_ok ha
    cases b with
    | unknown => exact nomatch hb
    | hist t' b =>
      obtain ⟨y, hy, rfl⟩ := map_ok hb
      rw [OData.hist.injEq, points_same (a := a) (b := b) oka okb]
      constructor
      · rintro ⟨rfl, h⟩
        cases temporality_inj hx hy
        exact .hist h
      · rintro (_ | _ | h)
        rw [hx] at hy
        exact ⟨by cases hy; rfl, h⟩
    | gauge b => cases hb; exact ⟨nofun, nofun⟩
    | summary b => cases hb; exact ⟨nofun, nofun⟩
    | sum t m b => obtain ⟨_, _, rfl⟩ := map_ok hb; exact ⟨nofun, nofun⟩
    | expHist t b => obtain ⟨_, _, rfl⟩ := map_ok hb; exact ⟨nofun, nofun⟩
  | expHist t a =>
    obtain ⟨x, hx, rfl⟩ := map_ok ha
    cases b with
    | unknown => exact nomatch hb
    | expHist t' b =>
      obtain ⟨y, hy, rfl⟩ := map_ok hb
      rw [OData.expHist.injEq, points_same (a := a) (b := b) oka okb]
      constructor
      · rintro ⟨rfl, h⟩
        cases temporality_inj hx hy
        exact .expHist h
      · rintro (_ | _ | _ | h)
        rw [hx] at hy
        exact ⟨by cases hy; rfl, h⟩
    | gauge b => cases hb; exact ⟨nofun, nofun⟩
    | summary b => cases hb; exact ⟨nofun, nofun⟩
    | sum t m b => obtain ⟨_, _, rfl⟩ := map_ok hb; exact ⟨nofun, nofun⟩
    | hist t b => obtain ⟨_, _, rfl⟩ := map_ok hb; exact ⟨nofun, nofun⟩

/-- **C78**: two metrics that can be exported have the same exported form exactly if name, description and unit are the same and the
data say the same. -/
theorem C78_metric {m m' : MetricIn Pt} {o o' : MetricOut PtOut} (h : metric (point f) m = .ok o) (h' : metric (point f) m' = .ok o')
    (ok : ∀ p ∈ m.data.points, p.Ok) (ok' : ∀ p ∈ m'.data.points, p.Ok) :
    o = o' ↔ m.name = m'.name ∧ m.description = m'.description ∧ m.unit = m'.unit ∧ SameAgg f m.data m'.data := by
  obtain ⟨d, hd, rfl⟩ := map_ok h
  obtain ⟨d', hd', rfl⟩ := map_ok h'
  rw [MetricOut.mk.injEq, outData_same hd hd' ok ok']

/-! ## What is lost, and what is needed -/

/-- A span with a parent, an event, a link and a failed status. -/
def toySpan : SpanDetail where
  traceId := List.replicate 16 7
  spanId := List.replicate 8 8
  traceState := ascii "a=1"
  flags := 1
  parentId := List.replicate 8 9
  parentTraceId := List.replicate 16 7
  kind := 2
  name := ascii "Query"
  start := 1700000000000000000
  stop := 1700000000500000000
  statusCode := 1
  statusText := ascii "no"
  attrs := [(ascii "rows", .int 5), (ascii "tags", .strs [])]
  events := [⟨ascii "e", 1700000000100000000, [], 0⟩]
  links := [⟨List.replicate 16 1, List.replicate 8 2, ascii "b=2", 1, [], 0⟩]
  droppedAttrs := 0
  droppedEvents := 1
  droppedLinks := 0

theorem toy_span_ok : toySpan.Ok where
  parent := by decide
  times := by unfold TimeOk; decide
  counts := by unfold CountOk; decide
  events := by
    intro e he
    simp only [toySpan, List.mem_singleton] at he
    subst he; unfold TimeOk CountOk; decide
  links := by
    intro e he
    simp only [toySpan, List.mem_singleton] at he
    subst he; unfold CountOk; decide

/-- The hypotheses are met, and the span is exported as server span (2) with status error (2) and its parent. -/
example : SpanAs toySpan (span toySpan) ∧ (span toySpan).kind = 2 ∧ (span toySpan).statusCode = 2 ∧ (span toySpan).parentId = some (List.replicate 8 9) ∧
    (span toySpan).start = 1700000000000000000 := ⟨C78_held toy_span_ok, rfl, rfl, rfl, rfl⟩

/-- A span with another status is told apart. -/
example : span toySpan ≠ span { toySpan with statusCode := 2 } := by
  intro h
  have ok : ({ toySpan with statusCode := 2 } : SpanDetail).Ok := ⟨toy_span_ok.parent, toy_span_ok.times, toy_span_ok.counts, toy_span_ok.events, toy_span_ok.links⟩
  have h := ((C78_span toy_span_ok ok).mp h).status
  unfold SameStatus at h
  exact absurd h (by decide)

/-- **C78**: what is not exported: the flags of the span's context, the trace id of its parent, the trace state and flags of a link, and
the zero threshold of an exponential histogram. -/
theorem C78_lost : (∀ (s : SpanDetail) (fl : Nat) (p : Bytes), span { s with flags := fl, parentTraceId := p } = span s) ∧
    (∀ (s : SpanDetail) (l l' : LinkIn), l.traceId = l'.traceId → l.spanId = l'.spanId → l.attrs = l'.attrs → l.dropped = l'.dropped →
      span { s with links := [l] } = span { s with links := [l'] }) ∧
    (∀ b n lo hi sum scale zc zt zt' pos neg ex, point f (.exp b n lo hi sum scale zc zt pos neg ex) = point f (.exp b n lo hi sum scale zc zt' pos neg ex)) := by
  refine ⟨fun _ _ _ => rfl, fun s l l' h1 h2 h3 h4 => ?_, fun _ _ _ _ _ _ _ _ _ _ _ _ => rfl⟩
  have : links [l] = links [l'] := by simp only [links, List.map_cons, List.map_nil, h1, h2, h3, h4]
  simp only [span, this]

/-- **C78**: times outside 1678 … 2262 are exported as other times, for example of a span that was never ended: year 1 becomes 1754. -/
theorem C78_wrapped : (span { toySpan with stop := zeroTime }) = (span { toySpan with stop := -6795364578871345152 }) ∧
    zeroTime ≠ -6795364578871345152 ∧ TimeOk (-6795364578871345152) := by
  refine ⟨?_, by decide, by unfold TimeOk; decide⟩
  have : unixNano zeroTime = unixNano (-6795364578871345152) := by decide
  simp only [span, this]

/-- A point that is met by the hypotheses, and two that are told apart only by their type. -/
example : Pt.Ok (.number ⟨[], zeroTime, 1700000000000000000⟩ (.int 1) []) ∧
    point f (.number ⟨[], zeroTime, 1700000000000000000⟩ (.int 1) []) ≠ point f (.number ⟨[], zeroTime, 1700000000000000000⟩ (.float 1) []) := by
  refine ⟨⟨⟨.inl rfl, .inr (by unfold TimeOk; decide)⟩, fun _ h => nomatch h⟩, fun h => ?_⟩
  simp [point] at h

/-- Two metrics that can be exported and differ only in their temporality are told apart. -/
example : ∃ o o', metric (point f) { data := .sum 1 true [.number ⟨[], zeroTime, 5⟩ (.int 1) []] } = .ok o ∧
    metric (point f) { data := .sum 2 true [.number ⟨[], zeroTime, 5⟩ (.int 1) []] } = .ok o' ∧ o ≠ o' := by
  refine ⟨_, _, rfl, rfl, fun h => ?_⟩
  simp at h

end Verif.Sf
