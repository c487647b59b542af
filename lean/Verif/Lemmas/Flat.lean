import Verif.Spec.Flat
import Verif.Lemmas.Bitmap
/-!
# Flattened metrics: what every loop adds
-/
namespace Verif.Fl
variable {σ : Type}

structure Rec where
  fact : Fact
  row : Row
  cols : Bm

/-- What is recorded of one point. -/
structure Rec.Ok (D : Dict σ) (P : Par σ) (st : σ) (x : Rec) : Prop where
  desc : x.row.Describes x.fact
  value : x.fact.HasValue → x.row.gauge = x.fact.number P.float
  hash : x.row.hash = P.hash x.cols
  asc : x.cols.Pairwise (· < ·)
  known : ∀ l, x.fact.Label l → ∃ c, D.look st l = some c
  cols : ∀ c, c ∈ x.cols ↔ ∃ l, x.fact.Label l ∧ D.look st l = some c

/-- From `m` to `m'`, the points `xs` were added. -/
structure Grew (D : Dict σ) (P : Par σ) (m : M σ) (xs : List Rec) (m' : M σ) : Prop where
  rows : m'.rows = m.rows ++ xs.map (·.row)
  taken : m'.taken = m.taken + xs.length
  ids : ∀ i x, xs[i]? = some x → x.row.id = P.ids (m.taken + i)
  ok : ∀ x ∈ xs, x.Ok D P m'.st
  pos : ∀ p, p ∈ m'.positions ↔ p ∈ m.positions ∨ ∃ x ∈ xs, ∃ c ∈ x.cols, p = Fl.pos x.row.id c
  good : D.Good m'.st
  ext : ∀ l n, D.look m.st l = some n → D.look m'.st l = some n

theorem Rec.Ok.mono {D : Dict σ} {P : Par σ} {st st' : σ} {x : Rec} (h : x.Ok D P st)
    (he : ∀ l n, D.look st l = some n → D.look st' l = some n) : x.Ok D P st' where
  desc := h.desc
  value := h.value
  hash := h.hash
  asc := h.asc
  known := fun l hl => by obtain ⟨c, hc⟩ := h.known l hl; exact ⟨c, he _ _ hc⟩
  cols := fun c => by
    rw [h.cols]
    constructor
    · rintro ⟨l, hl, hc⟩; exact ⟨l, hl, he _ _ hc⟩
    · rintro ⟨l, hl, hc⟩
      obtain ⟨c', hc'⟩ := h.known l hl
      have := he _ _ hc'
      rw [hc] at this
      exact ⟨l, hl, by rw [hc']; exact this.symm⟩

theorem Grew.refl {D : Dict σ} {P : Par σ} {m : M σ} (hg : D.Good m.st) : Grew D P m [] m where
  rows := by simp
  taken := by simp
  ids := by simp
  ok := by simp
  pos := by simp
  good := hg
  ext := fun _ _ h => h

/-- Only the dictionary grew. -/
theorem Grew.dict {D : Dict σ} {P : Par σ} {m : M σ} {st : σ} (hg : D.Good st)
    (he : ∀ l n, D.look m.st l = some n → D.look st l = some n) : Grew D P m [] { m with st := st } where
  rows := by simp
  taken := by simp
  ids := by simp
  ok := by simp
  pos := by simp
  good := hg
  ext := he

theorem Grew.trans {D : Dict σ} {P : Par σ} {m m1 m2 : M σ} {xs ys : List Rec} (h1 : Grew D P m xs m1) (h2 : Grew D P m1 ys m2) :
    Grew D P m (xs ++ ys) m2 where
  rows := by rw [h2.rows, h1.rows]; simp
  taken := by rw [h2.taken, h1.taken]; simp; omega
  ids := by
    intro i x hx
    by_cases hi : i < xs.length
    · rw [List.getElem?_append_left hi] at hx
      exact h1.ids i x hx
    · rw [List.getElem?_append_right (by omega)] at hx
      rw [h2.ids _ x hx, h1.taken]
      congr 1; omega
  ok := by
    intro x hx
    rcases List.mem_append.1 hx with hx | hx
    · exact (h1.ok x hx).mono h2.ext
    · exact h2.ok x hx
  pos := by
    intro p
    rw [h2.pos, h1.pos]
    constructor
    · rintro ((h | ⟨x, hx, h⟩) | ⟨x, hx, h⟩)
      · exact .inl h
      · exact .inr ⟨x, List.mem_append_left _ hx, h⟩
      · exact .inr ⟨x, List.mem_append_right _ hx, h⟩
    · rintro (h | ⟨x, hx, h⟩)
      · exact .inl (.inl h)
      · rcases List.mem_append.1 hx with hx | hx
        · exact .inl (.inr ⟨x, hx, h⟩)
        · exact .inr ⟨x, hx, h⟩
  good := h2.good
  ext := fun l n h => h2.ext l n (h1.ext l n h)

theorem addCols_spec {D : Dict σ} {P : Par σ} (hD : D.Lawful) (ht : P.tr = D.tr) (kvs : List KeyValue) {st : σ} {b : Bm} {st' : σ} {b' : Bm}
    (hg : D.Good st) (hb : b.Pairwise (· < ·)) (h : addCols P kvs st b = some (st', b')) :
    D.Good st' ∧ (∀ l n, D.look st l = some n → D.look st' l = some n) ∧ b'.Pairwise (· < ·) ∧
      (∀ kv ∈ kvs, ∀ l, KeyValue.label kv = some l → ∃ c, D.look st' l = some c) ∧
      (∀ c, c ∈ b' ↔ c ∈ b ∨ ∃ kv ∈ kvs, ∃ l, KeyValue.label kv = some l ∧ D.look st' l = some c) := by
  induction kvs generalizing st b with
  | nil =>
    simp only [addCols, Option.some.injEq, Prod.mk.injEq] at h
    obtain ⟨rfl, rfl⟩ := h
    exact ⟨hg, fun _ _ h => h, hb, by simp, by simp⟩
  | cons kv kvs ih =>
    simp only [addCols] at h
    cases hv : kv.value with
    | none => simp [hv] at h
    | some v =>
      cases v with
      | other raw =>
        simp only [hv] at h
        obtain ⟨h1, h2, h3, h4, h5⟩ := ih hg hb h
        have hl : KeyValue.label kv = none := by simp [KeyValue.label, hv]
        refine ⟨h1, h2, h3, ?_, ?_⟩
        · intro kv' hk l hl'
          rcases List.mem_cons.1 hk with rfl | hk
          · rw [hl] at hl'; exact (nomatch hl')
          · exact h4 kv' hk l hl'
        · intro c
          rw [h5]
          constructor
          · rintro (h | ⟨k, hk, h⟩)
            · exact .inl h
            · exact .inr ⟨k, List.mem_cons_of_mem _ hk, h⟩
          · rintro (h | ⟨k, hk, l, hl', h⟩)
            · exact .inl h
            · rcases List.mem_cons.1 hk with rfl | hk
              · rw [hl] at hl'; exact (nomatch hl')
              · exact .inr ⟨k, hk, l, hl', h⟩
      | str s =>
        simp only [hv] at h
        have hl : KeyValue.label kv = some (kv.key ++ equal ++ s) := by simp [KeyValue.label, hv, equal]
        cases hq : P.tr st (kv.key ++ equal ++ s) with
        | none => (simp only [hq] at h; exact (nomatch h))
        | some q =>
          obtain ⟨st1, c1⟩ := q
          simp only [hq] at h
          rw [ht] at hq
          have hg1 := hD.good hg hq
          obtain ⟨h1, h2, h3, h4, h5⟩ := ih hg1 (Bm.add_ok hb c1) h
          have hc1 := h2 _ _ (hD.hit hg hq)
          refine ⟨h1, fun l n hn => h2 _ _ (hD.keep hg hq hn), h3, ?_, ?_⟩
          · intro kv' hk l hl'
            rcases List.mem_cons.1 hk with rfl | hk
            · rw [hl] at hl'
              rw [← Option.some.inj hl']
              exact ⟨c1, hc1⟩
            · exact h4 kv' hk l hl'
          · intro c
            rw [h5, Bm.mem_add]
            constructor
            · rintro ((rfl | h) | ⟨k, hk, h⟩)
              · exact .inr ⟨kv, List.mem_cons_self, _, hl, hc1⟩
              · exact .inl h
              · exact .inr ⟨k, List.mem_cons_of_mem _ hk, h⟩
            · rintro (h | ⟨k, hk, l, hl', h⟩)
              · exact .inl (.inr h)
              · rcases List.mem_cons.1 hk with rfl | hk
                · rw [hl] at hl'
                  rw [← Option.some.inj hl', hc1] at h
                  exact .inl (.inl (Option.some.inj h).symm)
                · exact .inr ⟨k, hk, l, hl', h⟩

theorem attrOf_spec {D : Dict σ} {P : Par σ} (hD : D.Lawful) (ht : P.tr = D.tr) {a : Attr} {name : Bytes} {kvs : List KeyValue}
    {st st' : σ} {all : List KeyValue} {cols : Bm} (hg : D.Good st) (h : attrOf P a name kvs st = some (st', all, cols)) :
    D.Good st' ∧ (∀ l n, D.look st l = some n → D.look st' l = some n) ∧ cols.Pairwise (· < ·) ∧ all = a.resource ++ a.scope ++ kvs ∧
      (∀ l, (l = nameLabel name ∨ ∃ kv ∈ kvs, KeyValue.label kv = some l) → ∃ c, D.look st' l = some c) ∧
      (∀ c, c ∈ cols ↔ ∃ l, (l = nameLabel name ∨ ∃ kv ∈ kvs, KeyValue.label kv = some l) ∧ D.look st' l = some c) := by
  unfold attrOf doCols at h
  cases h0 : addCols P kvs st [] with
  | none => simp [h0] at h
  | some q =>
    obtain ⟨st1, ab⟩ := q
    simp only [h0] at h
    cases hq : P.tr st1 (nameKey ++ equal ++ name) with
    | none => (simp only [hq] at h; exact (nomatch h))
    | some q =>
      obtain ⟨st2, c2⟩ := q
      simp only [hq, Option.some.injEq, Prod.mk.injEq] at h
      obtain ⟨rfl, rfl, rfl⟩ := h
      have hn : nameKey ++ equal ++ name = nameLabel name := rfl
      rw [ht, hn] at hq
      obtain ⟨h1, h2, h3, h4, h5⟩ := addCols_spec hD ht kvs hg List.Pairwise.nil h0
      have hc2 := hD.hit h1 hq
      refine ⟨hD.good h1 hq, fun l n hl => hD.keep h1 hq (h2 l n hl), Bm.add_ok h3 c2, rfl, ?_, ?_⟩
      · rintro l (rfl | ⟨kv, hk, hl⟩)
        · exact ⟨c2, hc2⟩
        · obtain ⟨c, hc⟩ := h4 kv hk l hl
          exact ⟨c, hD.keep h1 hq hc⟩
      · intro c
        rw [Bm.mem_add, h5]
        constructor
        · rintro (rfl | h | ⟨kv, hk, l, hl, hc⟩)
          · exact ⟨_, .inl rfl, hc2⟩
          · simp at h
          · exact ⟨l, .inr ⟨kv, hk, hl⟩, hD.keep h1 hq hc⟩
        · rintro ⟨l, rfl | ⟨kv, hk, hl⟩, hc⟩
          · rw [hc2] at hc; exact .inl (Option.some.inj hc).symm
          · obtain ⟨c', hc'⟩ := h4 kv hk l hl
            have := hD.keep h1 hq hc'
            rw [hc] at this
            exact .inr (.inr ⟨kv, hk, l, hl, by rw [hc']; exact this.symm⟩)

theorem mem_foldl_add (f : Nat → Nat) (cols : List Nat) (b : Bm) (p : Nat) :
    p ∈ cols.foldl (fun b c => b.add (f c)) b ↔ p ∈ b ∨ ∃ c ∈ cols, p = f c := by
  induction cols generalizing b with
  | nil => simp
  | cons c cs ih =>
    rw [List.foldl_cons, ih, Bm.mem_add]
    constructor
    · rintro ((h | h) | ⟨c', hc, h⟩)
      · exact .inr ⟨c, List.mem_cons_self, h⟩
      · exact .inl h
      · exact .inr ⟨c', List.mem_cons_of_mem _ hc, h⟩
    · rintro (h | ⟨c', hc, h⟩)
      · exact .inl (.inr h)
      · rcases List.mem_cons.1 hc with rfl | hc
        · exact .inl (.inl h)
        · exact .inr ⟨c', hc, h⟩

/-- The row written for `mx`, with what `finish` fills in. -/
def Row.done (mx : Row) (all : List KeyValue) (hash id : Nat) : Row := { mx with attributes := all, hash := hash, id := id }

theorem finish_spec {D : Dict σ} {P : Par σ} (hD : D.Lawful) (ht : P.tr = D.tr) {a : Attr} {f : Fact} {m : M σ} {mx : Row} {m' : M σ}
    {mx' : Row} (hg : D.Good m.st) (hr : a.resource = f.resource) (hs : a.scope = f.scope) (hn : mx.name = f.metric.name)
    (hd : ∀ hash id, (mx.done f.attrs hash id).Describes f)
    (hv : f.HasValue → mx.gauge = f.number P.float)
    (h : finish P a f.own m mx = some (m', mx')) :
    (∃ cols, Grew D P m [⟨f, mx', cols⟩] m') ∧ ∃ hash id, mx' = mx.done f.attrs hash id := by
  unfold finish at h
  cases h0 : attrOf P a mx.name f.own m.st with
  | none => simp [h0] at h
  | some q =>
    obtain ⟨st, all, cols⟩ := q
    simp only [h0, Option.some.injEq, Prod.mk.injEq] at h
    obtain ⟨rfl, rfl⟩ := h
    obtain ⟨h1, h2, h3, h4, h5, h6⟩ := attrOf_spec hD ht hg h0
    have hall : all = f.attrs := by rw [h4, hr, hs]; rfl
    subst hall
    refine ⟨⟨cols, ?_⟩, P.hash cols, P.ids m.taken, rfl⟩
    exact {
      rows := rfl
      taken := rfl
      ids := by
        intro i x hx
        cases i with
        | zero => simp at hx; rw [← hx]; rfl
        | succ i => simp at hx
      ok := by
        intro x hx
        simp only [List.mem_singleton] at hx
        subst hx
        exact {
          desc := hd _ _
          value := hv
          hash := rfl
          asc := h3
          known := by
            intro l hl
            apply h5
            rw [hn]
            exact hl
          cols := by
            intro c
            rw [h6, hn]
            exact Iff.rfl }
      pos := by
        intro p
        rw [mem_foldl_add]
        simp
      good := h1
      ext := h2 }

/-- The common form of `numbers`, `summaries`, `hists`, `expHists`. -/
def loop {α : Type} (P : Par σ) (a : Attr) (fill : Row → α → Row) (attrs : α → List KeyValue) : List α → M σ → Row → Option (M σ)
  | [], m, _ => some m
  | p :: ps, m, mx =>
    match finish P a (attrs p) m (fill mx p) with
    | none => none
    | some (m, mx) => loop P a fill attrs ps m mx

theorem loop_spec {α : Type} {D : Dict σ} {P : Par σ} (hD : D.Lawful) (ht : P.tr = D.tr) {a : Attr} {fill : Row → α → Row}
    {attrs : α → List KeyValue} {mk : α → Fact} (I : Row → Prop)
    (hmk : ∀ p, (mk p).own = attrs p ∧ a.resource = (mk p).resource ∧ a.scope = (mk p).scope)
    (hI : ∀ mx, I mx → ∀ p, (fill mx p).name = (mk p).metric.name ∧
      (∀ hash id, ((fill mx p).done (mk p).attrs hash id).Describes (mk p)) ∧ ((mk p).HasValue → (fill mx p).gauge = (mk p).number P.float) ∧
      ∀ hash id, I ((fill mx p).done (mk p).attrs hash id))
    (l : List α) {m m' : M σ} {mx : Row} (hmx : I mx) (hg : D.Good m.st) (h : loop P a fill attrs l m mx = some m') :
    ∃ xs, Grew D P m xs m' ∧ xs.map (·.fact) = l.map mk := by
  induction l generalizing m mx with
  | nil =>
    simp only [loop, Option.some.injEq] at h
    subst h
    exact ⟨[], Grew.refl hg, rfl⟩
  | cons p ps ih =>
    simp only [loop] at h
    cases h0 : finish P a (attrs p) m (fill mx p) with
    | none => (simp only [h0] at h; exact (nomatch h))
    | some q =>
      obtain ⟨m1, mx1⟩ := q
      simp only [h0] at h
      obtain ⟨ho, hr, hs⟩ := hmk p
      obtain ⟨hn, hd, hv, hn'⟩ := hI mx hmx p
      rw [← ho] at h0
      obtain ⟨⟨cols, hgr⟩, hash, id, rfl⟩ := finish_spec hD ht hg hr hs hn hd hv h0
      obtain ⟨xs, hxs, hf⟩ := ih (hn' hash id) hgr.good h
      exact ⟨_, hgr.trans hxs, by simp [hf]⟩

theorem numbers_eq (P : Par σ) (a : Attr) (l : List NPoint) (m : M σ) (mx : Row) :
    numbers P a l m mx = loop P a (fillNum P) (·.attrs) l m mx := by
  induction l generalizing m mx with
  | nil => rfl
  | cons p ps ih =>
    simp only [numbers, loop]
    cases finish P a p.attrs m (fillNum P mx p) with
    | none => rfl
    | some q => exact ih q.1 q.2

theorem summaries_eq (P : Par σ) (a : Attr) (l : List HPoint) (m : M σ) (mx : Row) :
    summaries P a l m mx = loop P a (fun mx p => { mx with start := p.start, time := p.time, summary := some p.body }) (·.attrs) l m mx := by
  induction l generalizing m mx with
  | nil => rfl
  | cons p ps ih =>
    simp only [summaries, loop]
    cases finish P a p.attrs m { mx with start := p.start, time := p.time, summary := some p.body } with
    | none => rfl
    | some q => exact ih q.1 q.2

theorem hists_eq (P : Par σ) (a : Attr) (l : List HPoint) (m : M σ) (mx : Row) :
    hists P a l m mx = loop P a (fun mx p => { mx with start := p.start, time := p.time, exemplars := p.exemplars, histogram := some p.body })
      (·.attrs) l m mx := by
  induction l generalizing m mx with
  | nil => rfl
  | cons p ps ih =>
    simp only [hists, loop]
    cases finish P a p.attrs m { mx with start := p.start, time := p.time, exemplars := p.exemplars, histogram := some p.body } with
    | none => rfl
    | some q => exact ih q.1 q.2

theorem expHists_eq (P : Par σ) (a : Attr) (l : List HPoint) (m : M σ) (mx : Row) :
    expHists P a l m mx = loop P a (fun mx p => { mx with start := p.start, time := p.time, exemplars := p.exemplars, expHistogram := some p.body })
      (·.attrs) l m mx := by
  induction l generalizing m mx with
  | nil => rfl
  | cons p ps ih =>
    simp only [expHists, loop]
    cases finish P a p.attrs m { mx with start := p.start, time := p.time, exemplars := p.exemplars, expHistogram := some p.body } with
    | none => rfl
    | some q => exact ih q.1 q.2

/-- The fields of a row that are set once per metric. -/
structure Row.Base (r : Row) (ms : Metric) (k : Kind) (t : Int) (mono : Bool) : Prop where
  name : r.name = ms.name
  description : r.description = ms.description
  unit : r.unit = ms.unit
  kind : r.kind = k
  temporality : r.temporality = t
  monotonic : r.monotonic = mono

/-- The data points of a metric with what surrounds them. -/
def factsOf (res sc : List KeyValue) (ms : Metric) : List Fact :=
  ((ms.data.map Points.all).getD []).map fun p => { resource := res, scope := sc, metric := ms, point := p }

theorem metric_spec {D : Dict σ} {P : Par σ} (hD : D.Lawful) (ht : P.tr = D.tr) {a : Attr} {ms : Metric} {m m' : M σ}
    (hg : D.Good m.st) (h : metric P a ms m = some m') :
    ∃ xs, Grew D P m xs m' ∧ xs.map (·.fact) = factsOf a.resource a.scope ms := by
  unfold metric at h
  cases hm : ms.data with
  | none =>
    simp only [hm, Option.some.injEq] at h
    subst h
    exact ⟨[], Grew.refl hg, by simp [factsOf, hm]⟩
  | some d =>
    cases d with
    | gauge l =>
      simp only [hm] at h
      rw [numbers_eq] at h
      obtain ⟨xs, h1, h2⟩ := loop_spec (mk := fun p => ⟨a.resource, a.scope, ms, .inl p⟩) hD ht
        (fun r => r.Base ms .gauge 0 false ∧ r.histogram = none ∧ r.expHistogram = none ∧ r.summary = none) (fun p => ⟨rfl, rfl, rfl⟩)
        (by
          rintro mx ⟨⟨b1, b2, b3, b4, b5, b6⟩, g1, g2, g3⟩ p
          cases hv : p.value with
          | none =>
            simp only [fillNum, hv, Row.done]
            refine ⟨b1, fun _ _ => ⟨b1, b2, b3, ?_, rfl, rfl, rfl, ?_, ?_, ?_, ?_, ?_, ?_⟩, ?_, fun _ _ => ⟨⟨b1, b2, b3, b4, b5, b6⟩, g1, g2, g3⟩⟩ <;>
              simp [Fact.kind, Fact.exemplars, Fact.body, Fact.temporality, Fact.monotonic, Fact.HasValue, hm, hv, b4, b5, b6, g1, g2, g3]
          | some v =>
            cases v <;> (simp only [fillNum, hv, Row.done]
                         refine ⟨b1, fun _ _ => ⟨b1, b2, b3, ?_, rfl, rfl, rfl, ?_, ?_, ?_, ?_, ?_, ?_⟩, ?_, fun _ _ => ⟨⟨b1, b2, b3, b4, b5, b6⟩, g1, g2, g3⟩⟩ <;>
                           simp [Fact.kind, Fact.exemplars, Fact.body, Fact.temporality, Fact.monotonic, Fact.HasValue, Fact.number, hm, hv, b4, b5, b6, g1, g2, g3]))
        l (by exact ⟨⟨rfl, rfl, rfl, rfl, rfl, rfl⟩, rfl, rfl, rfl⟩) hg h
      exact ⟨xs, h1, by rw [h2]; simp [factsOf, hm, Points.all]⟩
    | sum t mono l =>
      simp only [hm] at h
      rw [numbers_eq] at h
      obtain ⟨xs, h1, h2⟩ := loop_spec (mk := fun p => ⟨a.resource, a.scope, ms, .inl p⟩) hD ht
        (fun r => r.Base ms .sum t mono ∧ r.histogram = none ∧ r.expHistogram = none ∧ r.summary = none) (fun p => ⟨rfl, rfl, rfl⟩)
        (by
          rintro mx ⟨⟨b1, b2, b3, b4, b5, b6⟩, g1, g2, g3⟩ p
          cases hv : p.value with
          | none =>
            simp only [fillNum, hv, Row.done]
            refine ⟨b1, fun _ _ => ⟨b1, b2, b3, ?_, rfl, rfl, rfl, ?_, ?_, ?_, ?_, ?_, ?_⟩, ?_, fun _ _ => ⟨⟨b1, b2, b3, b4, b5, b6⟩, g1, g2, g3⟩⟩ <;>
              simp [Fact.kind, Fact.exemplars, Fact.body, Fact.temporality, Fact.monotonic, Fact.HasValue, hm, hv, b4, b5, b6, g1, g2, g3]
          | some v =>
            cases v <;> (simp only [fillNum, hv, Row.done]
                         refine ⟨b1, fun _ _ => ⟨b1, b2, b3, ?_, rfl, rfl, rfl, ?_, ?_, ?_, ?_, ?_, ?_⟩, ?_, fun _ _ => ⟨⟨b1, b2, b3, b4, b5, b6⟩, g1, g2, g3⟩⟩ <;>
                           simp [Fact.kind, Fact.exemplars, Fact.body, Fact.temporality, Fact.monotonic, Fact.HasValue, Fact.number, hm, hv, b4, b5, b6, g1, g2, g3]))
        l (by exact ⟨⟨rfl, rfl, rfl, rfl, rfl, rfl⟩, rfl, rfl, rfl⟩) hg h
      exact ⟨xs, h1, by rw [h2]; simp [factsOf, hm, Points.all]⟩
    | hist t l =>
      simp only [hm] at h
      rw [hists_eq] at h
      obtain ⟨xs, h1, h2⟩ := loop_spec (mk := fun p => ⟨a.resource, a.scope, ms, .inr p⟩) hD ht
        (fun r => r.Base ms .histogram t false ∧ r.gauge = none ∧ r.expHistogram = none ∧ r.summary = none) (fun p => ⟨rfl, rfl, rfl⟩)
        (by
          rintro mx ⟨⟨b1, b2, b3, b4, b5, b6⟩, g1, g2, g3⟩ p
          simp only [Row.done]
          refine ⟨b1, fun _ _ => ⟨b1, b2, b3, ?_, rfl, rfl, rfl, ?_, ?_, ?_, ?_, ?_, ?_⟩, ?_, fun _ _ => ⟨⟨b1, b2, b3, b4, b5, b6⟩, g1, g2, g3⟩⟩ <;>
            simp [Fact.kind, Fact.exemplars, Fact.body, Fact.temporality, Fact.monotonic, Fact.HasValue, Fact.number, hm, b4, b5, b6, g1, g2, g3])
        l (by exact ⟨⟨rfl, rfl, rfl, rfl, rfl, rfl⟩, rfl, rfl, rfl⟩) hg h
      exact ⟨xs, h1, by rw [h2]; simp [factsOf, hm, Points.all]⟩
    | expHist t l =>
      simp only [hm] at h
      rw [expHists_eq] at h
      obtain ⟨xs, h1, h2⟩ := loop_spec (mk := fun p => ⟨a.resource, a.scope, ms, .inr p⟩) hD ht
        (fun r => r.Base ms .exponentialHistogram t false ∧ r.gauge = none ∧ r.histogram = none ∧ r.summary = none) (fun p => ⟨rfl, rfl, rfl⟩)
        (by
          rintro mx ⟨⟨b1, b2, b3, b4, b5, b6⟩, g1, g2, g3⟩ p
          simp only [Row.done]
          refine ⟨b1, fun _ _ => ⟨b1, b2, b3, ?_, rfl, rfl, rfl, ?_, ?_, ?_, ?_, ?_, ?_⟩, ?_, fun _ _ => ⟨⟨b1, b2, b3, b4, b5, b6⟩, g1, g2, g3⟩⟩ <;>
            simp [Fact.kind, Fact.exemplars, Fact.body, Fact.temporality, Fact.monotonic, Fact.HasValue, Fact.number, hm, b4, b5, b6, g1, g2, g3])
        l (by exact ⟨⟨rfl, rfl, rfl, rfl, rfl, rfl⟩, rfl, rfl, rfl⟩) hg h
      exact ⟨xs, h1, by rw [h2]; simp [factsOf, hm, Points.all]⟩
    | summary l =>
      simp only [hm] at h
      rw [summaries_eq] at h
      obtain ⟨xs, h1, h2⟩ := loop_spec (mk := fun p => ⟨a.resource, a.scope, ms, .inr p⟩) hD ht
        (fun r => r.Base ms .summary 0 false ∧ r.gauge = none ∧ r.histogram = none ∧ r.expHistogram = none ∧ r.exemplars = []) (fun p => ⟨rfl, rfl, rfl⟩)
        (by
          rintro mx ⟨⟨b1, b2, b3, b4, b5, b6⟩, g1, g2, g3, g4⟩ p
          simp only [Row.done]
          refine ⟨b1, fun _ _ => ⟨b1, b2, b3, ?_, rfl, rfl, rfl, ?_, ?_, ?_, ?_, ?_, ?_⟩, ?_, fun _ _ => ⟨⟨b1, b2, b3, b4, b5, b6⟩, g1, g2, g3, g4⟩⟩
          all_goals first
            | simp [Fact.kind, Fact.exemplars, Fact.body, Fact.temporality, Fact.monotonic, Fact.HasValue, Fact.number, hm, b4, b5, b6, g1, g2, g3, g4])
        l (by exact ⟨⟨rfl, rfl, rfl, rfl, rfl, rfl⟩, rfl, rfl, rfl, rfl⟩) hg h
      exact ⟨xs, h1, by rw [h2]; simp [factsOf, hm, Points.all]⟩

theorem metricLoop_spec {D : Dict σ} {P : Par σ} (hD : D.Lawful) (ht : P.tr = D.tr) {a : Attr} (l : List Metric) {m m' : M σ}
    (hg : D.Good m.st) (h : metricLoop P a l m = some m') :
    ∃ xs, Grew D P m xs m' ∧ xs.map (·.fact) = l.flatMap (factsOf a.resource a.scope) := by
  induction l generalizing m with
  | nil =>
    simp only [metricLoop, Option.some.injEq] at h
    subst h
    exact ⟨[], Grew.refl hg, rfl⟩
  | cons x l ih =>
    simp only [metricLoop] at h
    cases h0 : metric P a x m with
    | none => (simp only [h0] at h; exact (nomatch h))
    | some m1 =>
      simp only [h0] at h
      obtain ⟨xs, h1, h2⟩ := metric_spec hD ht hg h0
      obtain ⟨ys, h3, h4⟩ := ih h1.good h
      exact ⟨xs ++ ys, h1.trans h3, by simp [h2, h4]⟩

theorem scopeLoop_spec {D : Dict σ} {P : Par σ} (hD : D.Lawful) (ht : P.tr = D.tr) (l : List (ScopeG Metric)) {a a' : Attr} {m m' : M σ}
    (hg : D.Good m.st) (h : scopeLoop P a l m = some (m', a')) :
    ∃ xs, Grew D P m xs m' ∧ xs.map (·.fact) = l.flatMap (fun s => s.items.flatMap (factsOf a.resource ((s.scope.map (·.attrs)).getD []))) := by
  induction l generalizing m a with
  | nil =>
    simp only [scopeLoop, Option.some.injEq, Prod.mk.injEq] at h
    obtain ⟨rfl, rfl⟩ := h
    exact ⟨[], Grew.refl hg, rfl⟩
  | cons s l ih =>
    simp only [scopeLoop, setScope, doCols] at h
    cases h0 : addCols P ((s.scope.map (·.attrs)).getD []) m.st [] with
    | none => (simp only [h0] at h; exact (nomatch h))
    | some q =>
      obtain ⟨st, sb⟩ := q
      simp only [h0] at h
      obtain ⟨g1, g2, -⟩ := addCols_spec hD ht _ hg List.Pairwise.nil h0
      cases h1 : metricLoop P { a with scope := (s.scope.map (·.attrs)).getD [], sb := sb } s.items { m with st := st } with
      | none => (simp only [h1] at h; exact (nomatch h))
      | some m1 =>
        simp only [h1] at h
        obtain ⟨xs, h2, h3⟩ := metricLoop_spec hD ht s.items g1 h1
        obtain ⟨ys, h4, h5⟩ := ih h2.good h
        refine ⟨xs ++ ys, ?_, by simp [h3, h5]⟩
        exact ((Grew.dict g1 g2).trans h2).trans h4

theorem resourceLoop_spec {D : Dict σ} {P : Par σ} (hD : D.Lawful) (ht : P.tr = D.tr) (l : List (ResourceG Metric)) {a : Attr} {m m' : M σ}
    (hg : D.Good m.st) (h : resourceLoop P a l m = some m') :
    ∃ xs, Grew D P m xs m' ∧ xs.map (·.fact) = facts l := by
  induction l generalizing m a with
  | nil =>
    simp only [resourceLoop, Option.some.injEq] at h
    subst h
    exact ⟨[], Grew.refl hg, rfl⟩
  | cons r l ih =>
    simp only [resourceLoop, setResource, doCols] at h
    cases h0 : addCols P ((r.resource.map (·.attrs)).getD []) m.st [] with
    | none => (simp only [h0] at h; exact (nomatch h))
    | some q =>
      obtain ⟨st, rb⟩ := q
      simp only [h0] at h
      obtain ⟨g1, g2, -⟩ := addCols_spec hD ht _ hg List.Pairwise.nil h0
      cases h1 : scopeLoop P { a with resource := (r.resource.map (·.attrs)).getD [], rb := rb } r.scopes { m with st := st } with
      | none => (simp only [h1] at h; exact (nomatch h))
      | some q =>
        obtain ⟨m1, a1⟩ := q
        simp only [h1] at h
        obtain ⟨xs, h2, h3⟩ := scopeLoop_spec hD ht r.scopes g1 h1
        obtain ⟨ys, h4, h5⟩ := ih h2.good h
        refine ⟨xs ++ ys, ?_, ?_⟩
        · exact ((Grew.dict g1 g2).trans h2).trans h4
        · rw [List.map_append, h3, h5]
          rfl

theorem appendAll_spec {D : Dict σ} {P : Par σ} (hD : D.Lawful) (ht : P.tr = D.tr) (ds : List (List (ResourceG Metric))) {m m' : M σ}
    (hg : D.Good m.st) (h : appendAll P ds m = some m') :
    ∃ xs, Grew D P m xs m' ∧ xs.map (·.fact) = ds.flatMap facts := by
  induction ds generalizing m with
  | nil =>
    simp only [appendAll, Option.some.injEq] at h
    subst h
    exact ⟨[], Grew.refl hg, rfl⟩
  | cons d ds ih =>
    simp only [appendAll] at h
    cases h0 : append P d m with
    | none => (simp only [h0] at h; exact (nomatch h))
    | some m1 =>
      simp only [h0] at h
      obtain ⟨xs, h1, h2⟩ := resourceLoop_spec hD ht d hg h0
      obtain ⟨ys, h3, h4⟩ := ih h1.good h
      exact ⟨xs ++ ys, h1.trans h3, by simp [h2, h4]⟩

end Verif.Fl
