import Verif.Spec.Filter
import Verif.Props.FirstLife
import Verif.Model.Visit
/-!
# C73: what each filter of a scan selects
-/
namespace Verif.Flt
open St

/-! ## Hexadecimal -/

theorem hexDigit_lower : ∀ n < 16, lower[n]? = some (hexDigit n) := by decide

theorem hexText_iff (b s : Bytes) : HexText [lower] b s ↔ hexEncode b = s := by
  constructor
  · intro h
    induction h with
    | nil => rfl
    | @cons x b h l s hi lo _ ih =>
      obtain ⟨ds, hd, e1⟩ := hi
      obtain ⟨ds', hd', e2⟩ := lo
      rw [List.mem_singleton] at hd hd'
      subst hd hd'
      have hx : x.toNat < 256 := x.toNat_lt
      rw [hexDigit_lower _ (by omega)] at e1 e2
      have e1 := Option.some.inj e1
      have e2 := Option.some.inj e2
      show [hexDigit (x.toNat / 16), hexDigit (x.toNat % 16)] ++ hexEncode b = _
      rw [ih, e1, e2]; rfl
  · rintro rfl
    induction b with
    | nil => exact .nil
    | cons x b ih =>
      have hx : x.toNat < 256 := x.toNat_lt
      exact .cons ⟨lower, List.mem_singleton.2 rfl, hexDigit_lower _ (by omega)⟩ ⟨lower, List.mem_singleton.2 rfl, hexDigit_lower _ (by omega)⟩ ih

theorem hexVal_iff : ∀ (c : UInt8) (n : Nat), Vs.hexVal c = some n ↔ n < 16 ∧ ∃ ds ∈ [lower, upper], ds[n]? = some c := by
  have h1 : ∀ c : Fin 256, ∀ n : Fin 16, Vs.hexVal (UInt8.ofNat c.val) = some n.val ↔ ∃ ds ∈ [lower, upper], ds[n.val]? = some (UInt8.ofNat c.val) := by
    decide +kernel
  have h2 : ∀ c : Fin 256, ∀ n ∈ Vs.hexVal (UInt8.ofNat c.val), n < 16 := by decide +kernel
  intro c n
  have hc : UInt8.ofNat c.toNat = c := by simp
  constructor
  · intro h
    have hn : n < 16 := h2 ⟨c.toNat, c.toNat_lt⟩ n (by simp only [hc]; exact h)
    have := (h1 ⟨c.toNat, c.toNat_lt⟩ ⟨n, hn⟩)
    simp only [hc] at this
    exact ⟨hn, this.1 h⟩
  · rintro ⟨hn, h⟩
    have := (h1 ⟨c.toNat, c.toNat_lt⟩ ⟨n, hn⟩)
    simp only [hc] at this
    exact this.2 h

/-- **C73.** Ids in filters may be spelled in lower or upper case where records are filtered (`hexDecode`). -/
theorem C73_hexDecode : ∀ (s b : Bytes), Vs.hexDecode s = some b ↔ HexText [lower, upper] b s
  | [], b => by
    simp only [Vs.hexDecode, Option.some.injEq]
    constructor
    · rintro rfl; exact .nil
    · intro h; cases h; rfl
  | [_], b => by
    simp only [Vs.hexDecode, reduceCtorEq, false_iff]
    intro h; cases h
  | h :: l :: s, b => by
    have ih := C73_hexDecode s
    constructor
    · intro hd
      simp only [Vs.hexDecode] at hd
      cases e1 : Vs.hexVal h with
      | none => simp [e1] at hd
      | some x =>
        cases e2 : Vs.hexVal l with
        | none => simp [e1, e2] at hd
        | some y =>
          cases e3 : Vs.hexDecode s with
          | none => simp [e1, e2, e3] at hd
          | some z =>
            simp only [e1, e2, e3, Option.some.injEq] at hd
            subst hd
            obtain ⟨hx, a⟩ := (hexVal_iff h x).1 e1
            obtain ⟨hy, c⟩ := (hexVal_iff l y).1 e2
            have hn : (UInt8.ofNat (x * 16 + y)).toNat = x * 16 + y := by
              rw [UInt8.toNat_ofNat']; omega
            refine .cons ?_ ?_ ((ih z).1 e3)
            · rw [hn, show (x * 16 + y) / 16 = x by omega]; exact a
            · rw [hn, show (x * 16 + y) % 16 = y by omega]; exact c
    · intro hd
      cases hd with
      | @cons x b h l s hi lo rest =>
        have hx : x.toNat < 256 := x.toNat_lt
        have e1 := (hexVal_iff h (x.toNat / 16)).2 ⟨by omega, hi⟩
        have e2 := (hexVal_iff l (x.toNat % 16)).2 ⟨by omega, lo⟩
        simp only [Vs.hexDecode, e1, e2, (ih b).2 rest, Option.some.injEq, List.cons.injEq, and_true]
        rw [show x.toNat / 16 * 16 + x.toNat % 16 = x.toNat by omega]
        simp

/-! ## Labels and fields -/

/-- A label of this resource, prefix and text. -/
def Gives (P : Label → Prop) (r p : Int) (t : Bytes) : Prop := ∃ l, P l ∧ l.resource = r ∧ l.pfx = p ∧ labelText l.key l.value = t

theorem labelText_nil (k : Bytes) : labelText k [] = k := by simp [labelText]

theorem gives_text {r' p' r p : Int} {s t : Bytes} : Gives (TextLabel r' p' s) r p t ↔ r' = r ∧ p' = p ∧ s = t ∧ t ≠ [] := by
  constructor
  · rintro ⟨l, ⟨h1, rfl⟩, h2, h3, h4⟩
    simp only [labelText_nil] at h4
    exact ⟨h2, h3, h4, by rw [← h4]; exact h1⟩
  · rintro ⟨h1, h2, rfl, h4⟩
    exact ⟨_, ⟨h4, rfl⟩, h1, h2, labelText_nil _⟩

theorem gives_id {r' p' r p : Int} {id : Option Bytes} {t : Bytes} : Gives (IdLabel r' p' id) r p t ↔ r' = r ∧ p' = p ∧ IdText id t := by
  constructor
  · rintro ⟨l, ⟨b, h1, rfl⟩, h2, h3, h4⟩
    simp only [labelText_nil] at h4
    exact ⟨h2, h3, b, h1, (hexText_iff b t).2 h4⟩
  · rintro ⟨h1, h2, b, h3, h4⟩
    refine ⟨_, ⟨b, h3, rfl⟩, h1, h2, ?_⟩
    rw [labelText_nil]; exact (hexText_iff b t).1 h4

theorem gives_attr {r' p' r p : Int} {as : List KeyValue} {t : Bytes} : Gives (AttrLabel r' p' as) r p t ↔
    r' = r ∧ p' = p ∧ ∃ k v, InAttrs k v as ∧ v ≠ [] ∧ labelText k v = t := by
  constructor
  · rintro ⟨l, ⟨⟨k, w⟩, h0, s, h1, h2, rfl⟩, h3, h4, h5⟩
    simp only at h2; subst h2
    exact ⟨h3, h4, k, s, h0, h1, h5⟩
  · rintro ⟨h1, h2, k, v, h3, h4, h5⟩
    exact ⟨_, ⟨⟨k, some (.str v)⟩, h3, v, h4, rfl, rfl⟩, h1, h2, h5⟩

theorem gives_or {P Q : Label → Prop} {r p : Int} {t : Bytes} : Gives (fun l => P l ∨ Q l) r p t ↔ Gives P r p t ∨ Gives Q r p t := by
  unfold Gives
  constructor
  · rintro ⟨l, h | h, h'⟩
    · exact .inl ⟨l, h, h'⟩
    · exact .inr ⟨l, h, h'⟩
  · rintro (⟨l, h, h'⟩ | ⟨l, h, h'⟩)
    · exact ⟨l, .inl h, h'⟩
    · exact ⟨l, .inr h, h'⟩

theorem gives_ex {α : Type} {C : α → Prop} {P : α → Label → Prop} {r p : Int} {t : Bytes} :
    Gives (fun l => ∃ a, C a ∧ P a l) r p t ↔ ∃ a, C a ∧ Gives (P a) r p t := by
  unfold Gives
  constructor
  · rintro ⟨l, ⟨a, h1, h2⟩, h⟩; exact ⟨a, h1, l, h2, h⟩
  · rintro ⟨a, h1, l, h2, h⟩; exact ⟨l, ⟨a, h1, h2⟩, h⟩

theorem gives_group {α : Type} {r' r p : Int} {item : α → Label → Prop} {rs : List (ResourceG α)} {t : Bytes} :
    Gives (GroupLabel r' item rs) r p t ↔
      (r' = r ∧ t ≠ [] ∧ (13 = p ∧ GroupText rs t .resourceSchema ∨ 2 = p ∧ GroupText rs t .scopeSchema ∨
        3 = p ∧ GroupText rs t .scopeName ∨ 4 = p ∧ GroupText rs t .scopeVersion)) ∨
      (r' = r ∧ ∃ k v, v ≠ [] ∧ labelText k v = t ∧ (1 = p ∧ GroupAttr rs k v .resource ∨ 5 = p ∧ GroupAttr rs k v .scope)) ∨
      ∃ x, Item rs x ∧ Gives (item x) r p t := by
  have e : Gives (GroupLabel r' item rs) r p t ↔ ∃ rm, rm ∈ rs ∧ (Gives (TextLabel r' Pfx.resourceSchema rm.schema) r p t ∨
      (∃ res, rm.resource = some res ∧ Gives (AttrLabel r' Pfx.resourceAttributes res.attrs) r p t) ∨
      ∃ sm, sm ∈ rm.scopes ∧ (Gives (TextLabel r' Pfx.scopeSchema sm.schema) r p t ∨
        (∃ sc, sm.scope = some sc ∧ (Gives (TextLabel r' Pfx.scopeName sc.name) r p t ∨ Gives (TextLabel r' Pfx.scopeVersion sc.version) r p t ∨
          Gives (AttrLabel r' Pfx.scopeAttributes sc.attrs) r p t)) ∨
        ∃ x, x ∈ sm.items ∧ Gives (item x) r p t)) := by
    unfold GroupLabel
    simp only [gives_ex, gives_or]
  rw [e]
  simp only [gives_text, gives_attr, Pfx.resourceSchema, Pfx.resourceAttributes, Pfx.scopeSchema, Pfx.scopeName, Pfx.scopeVersion, Pfx.scopeAttributes]
  constructor
  · rintro ⟨rm, hrm, ⟨h1, h2, h3, h4⟩ | ⟨res, hr, h1, h2, k, v, h3, h4, h5⟩ | ⟨sm, hsm, ⟨h1, h2, h3, h4⟩ | ⟨sc, hs, ⟨h1, h2, h3, h4⟩ | ⟨h1, h2, h3, h4⟩ | ⟨h1, h2, k, v, h3, h4, h5⟩⟩ | ⟨x, hx, hg⟩⟩⟩
    · exact .inl ⟨h1, h4, .inl ⟨h2, rm, hrm, h3⟩⟩
    · exact .inr (.inl ⟨h1, k, v, h4, h5, .inl ⟨h2, rm, hrm, res, hr, h3⟩⟩)
    · exact .inl ⟨h1, h4, .inr (.inl ⟨h2, rm, hrm, sm, hsm, h3⟩)⟩
    · exact .inl ⟨h1, h4, .inr (.inr (.inl ⟨h2, rm, hrm, sm, hsm, sc, hs, h3⟩))⟩
    · exact .inl ⟨h1, h4, .inr (.inr (.inr ⟨h2, rm, hrm, sm, hsm, sc, hs, h3⟩))⟩
    · exact .inr (.inl ⟨h1, k, v, h4, h5, .inr ⟨h2, rm, hrm, sm, hsm, sc, hs, h3⟩⟩)
    · exact .inr (.inr ⟨x, ⟨rm, hrm, sm, hsm, hx⟩, hg⟩)
  · rintro (⟨h1, h4, ⟨h2, rm, hrm, h3⟩ | ⟨h2, rm, hrm, sm, hsm, h3⟩ | ⟨h2, rm, hrm, sm, hsm, sc, hs, h3⟩ | ⟨h2, rm, hrm, sm, hsm, sc, hs, h3⟩⟩ |
      ⟨h1, k, v, h4, h5, ⟨h2, rm, hrm, res, hr, h3⟩ | ⟨h2, rm, hrm, sm, hsm, sc, hs, h3⟩⟩ | ⟨x, ⟨rm, hrm, sm, hsm, hx⟩, hg⟩)
    · exact ⟨rm, hrm, .inl ⟨h1, h2, h3, h4⟩⟩
    · exact ⟨rm, hrm, .inr (.inr ⟨sm, hsm, .inl ⟨h1, h2, h3, h4⟩⟩)⟩
    · exact ⟨rm, hrm, .inr (.inr ⟨sm, hsm, .inr (.inl ⟨sc, hs, .inl ⟨h1, h2, h3, h4⟩⟩)⟩)⟩
    · exact ⟨rm, hrm, .inr (.inr ⟨sm, hsm, .inr (.inl ⟨sc, hs, .inr (.inl ⟨h1, h2, h3, h4⟩)⟩)⟩)⟩
    · exact ⟨rm, hrm, .inr (.inl ⟨res, hr, h1, h2, k, v, h3, h4, h5⟩)⟩
    · exact ⟨rm, hrm, .inr (.inr ⟨sm, hsm, .inr (.inl ⟨sc, hs, .inr (.inr ⟨h1, h2, k, v, h3, h4, h5⟩)⟩)⟩)⟩
    · exact ⟨rm, hrm, .inr (.inr ⟨sm, hsm, .inr (.inr ⟨x, hx, hg⟩)⟩)⟩

theorem gives_metric {m : Metric} {r p : Int} {t : Bytes} : Gives (MetricLabel m) r p t ↔
    1 = r ∧ (6 = p ∧ m.name = t ∨ 7 = p ∧ ∃ d, m.data = some d ∧ ∃ y ∈ d.points, ∃ k v, InAttrs k v y.attrs ∧ v ≠ [] ∧ labelText k v = t) := by
  have e : Gives (MetricLabel m) r p t ↔ Gives (fun l => l = { resource := Res.metrics, pfx := Pfx.name, key := m.name }) r p t ∨
      ∃ d, m.data = some d ∧ ∃ y, y ∈ d.points ∧ Gives (AttrLabel Res.metrics Pfx.attributes y.attrs) r p t := by
    unfold MetricLabel
    simp only [gives_ex, gives_or]
  rw [e]
  simp only [gives_attr, Res.metrics, Pfx.name, Pfx.attributes]
  constructor
  · rintro (⟨l, rfl, h1, h2, h3⟩ | ⟨d, hd, y, hy, h1, h2, h3⟩)
    · exact ⟨h1, .inl ⟨h2, by rw [labelText_nil] at h3; exact h3⟩⟩
    · exact ⟨h1, .inr ⟨h2, d, hd, y, hy, h3⟩⟩
  · rintro ⟨h1, ⟨h2, h3⟩ | ⟨h2, d, hd, y, hy, h3⟩⟩
    · exact .inl ⟨_, rfl, h1, h2, by rw [labelText_nil]; exact h3⟩
    · exact .inr ⟨d, hd, y, hy, h1, h2, h3⟩

theorem gives_log {x : LogRecord} {r p : Int} {t : Bytes} : Gives (LogLabel x) r p t ↔
    3 = r ∧ (11 = p ∧ x.severity = t ∧ t ≠ [] ∨ (7 = p ∧ ∃ k v, InAttrs k v x.attrs ∧ v ≠ [] ∧ labelText k v = t) ∨
      9 = p ∧ IdText x.spanId t ∨ 8 = p ∧ IdText x.traceId t) := by
  unfold LogLabel
  simp only [gives_or, gives_text, gives_attr, gives_id, Res.logs, Pfx.logsLevel, Pfx.attributes, Pfx.spanId, Pfx.traceId]
  grind

theorem gives_span {x : Span} {r p : Int} {t : Bytes} : Gives (SpanLabel x) r p t ↔
    2 = r ∧ (6 = p ∧ x.name = t ∧ t ≠ [] ∨ 8 = p ∧ IdText x.traceId t ∨ 9 = p ∧ IdText x.spanId t ∨ 10 = p ∧ IdText x.parentSpanId t) := by
  unfold SpanLabel
  simp only [gives_or, gives_text, gives_id, Res.traces, Pfx.name, Pfx.parentSpanId, Pfx.spanId, Pfx.traceId]
  grind

theorem has_gives {o : Offered} {l : Label} (hp : l.pfx ≠ 0) : o.Has l ↔ Gives (Carries o.sample.data) l.resource l.pfx (labelText l.key l.value) := by
  rw [Sv.has_iff hp]
  unfold Gives
  simp only [C01_label_encode_eq_iff]

/-! ## What filters select -/

/-- **C73.** A sample passes a filter on a field exactly if it is of the signal of the scan and its payload has this field with this
text (an empty text only for metric names and ids). -/
theorem C73_field (o : Offered) (scope : Int) (f : Field) (s : Bytes) :
    o.Has { resource := scope, pfx := f.number, key := s } ↔
      scopeOf o.sample.data = scope ∧ Shows o.sample.data f s ∧ (s = [] → Always o.sample.data f) := by
  have hp : (f.number : Int) ≠ 0 := by cases f <;> decide
  rw [has_gives hp, labelText_nil]
  cases o.sample.data with
  | none =>
    constructor
    · rintro ⟨l, h, -⟩; exact h.elim
    · rintro ⟨-, h, -⟩; exact h.elim
  | metrics rs =>
    show Gives (GroupLabel Res.metrics MetricLabel rs) _ _ _ ↔ _
    rw [gives_group]
    simp only [gives_metric, Res.metrics, scopeOf, Shows, Always]
    cases f <;> simp [Field.number, GroupText] <;> grind
  | logs rs =>
    show Gives (GroupLabel Res.logs LogLabel rs) _ _ _ ↔ _
    rw [gives_group]
    simp only [gives_log, Res.logs, scopeOf, Shows, Always]
    cases f <;> simp [Field.number, GroupText] <;> grind
  | traces rs =>
    show Gives (GroupLabel Res.traces SpanLabel rs) _ _ _ ↔ _
    rw [gives_group]
    simp only [gives_span, Res.traces, scopeOf, Shows, Always]
    cases f <;> simp [Field.number, GroupText] <;> grind

/-- **C73.** A sample passes a filter on an attribute exactly if it is of the signal of the scan and has, at this place, a non-empty
string attribute whose key and value, joined by `=`, are those of the filter, joined by `=` (by nothing if the value is empty). Span
attributes are not indexed. -/
theorem C73_attr (o : Offered) (scope : Int) (p : Place) (k v : Bytes) :
    o.Has { resource := scope, pfx := p.number, key := k, value := v } ↔
      scopeOf o.sample.data = scope ∧ ¬ (IsTraces o.sample.data ∧ p = .record) ∧
      ∃ k' v', HasAttr o.sample.data p k' v' ∧ v' ≠ [] ∧ k' ++ [61] ++ v' = if v = [] then k else k ++ [61] ++ v := by
  have hp : (p.number : Int) ≠ 0 := by cases p <;> decide
  rw [has_gives hp]
  have e : labelText k v = if v = [] then k else k ++ [61] ++ v := rfl
  simp only [e]
  generalize (if v = [] then k else k ++ [61] ++ v) = t
  have e' : ∀ k' v', v' ≠ [] → (labelText k' v' = t ↔ k' ++ [61] ++ v' = t) := by
    intro k' v' h; unfold labelText; rw [if_neg h]; rfl
  cases o.sample.data with
  | none =>
    constructor
    · rintro ⟨l, h, -⟩; exact h.elim
    · rintro ⟨-, -, _, _, h, -⟩; exact h.elim
  | metrics rs =>
    show Gives (GroupLabel Res.metrics MetricLabel rs) _ _ _ ↔ _
    rw [gives_group]
    simp only [gives_metric, Res.metrics, scopeOf, HasAttr, IsTraces]
    cases p <;> simp [Place.number, GroupAttr] <;> grind
  | logs rs =>
    show Gives (GroupLabel Res.logs LogLabel rs) _ _ _ ↔ _
    rw [gives_group]
    simp only [gives_log, Res.logs, scopeOf, HasAttr, IsTraces]
    cases p <;> simp [Place.number, GroupAttr] <;> grind
  | traces rs =>
    show Gives (GroupLabel Res.traces SpanLabel rs) _ _ _ ↔ _
    rw [gives_group]
    simp only [gives_span, Res.traces, scopeOf, HasAttr, IsTraces]
    cases p <;> simp [Place.number, GroupAttr] <;> grind

/-- **C73.** Without equal signs in keys, an attribute filter selects exactly the payloads with this attribute. -/
theorem C73_attr_clean (o : Offered) (scope : Int) (p : Place) (k v : Bytes) (hv : v ≠ []) (hk : 61 ∉ k)
    (hd : ∀ k' v', HasAttr o.sample.data p k' v' → 61 ∉ k') :
    o.Has { resource := scope, pfx := p.number, key := k, value := v } ↔
      scopeOf o.sample.data = scope ∧ ¬ (IsTraces o.sample.data ∧ p = .record) ∧ HasAttr o.sample.data p k v := by
  rw [C73_attr, if_neg hv]
  constructor
  · rintro ⟨h1, h2, k', v', h3, h4, h5⟩
    rw [List.append_assoc, List.append_assoc] at h5
    obtain ⟨rfl, e⟩ := split_sep (s := (61 : UInt8)) (fun c hc e => hd k' v' h3 (e ▸ hc)) (fun c hc e => hk (e ▸ hc)) h5
    subst e
    exact ⟨h1, h2, h3⟩
  · rintro ⟨h1, h2, h3⟩
    exact ⟨h1, h2, k, v, h3, hv, rfl⟩

/-- **C73.** No filter selects spans by their attributes. -/
theorem C73_span_attributes (o : Offered) (scope : Int) (k v : Bytes) (rs : List (ResourceG Span)) (h : o.sample.data = .traces rs) :
    ¬ o.Has { resource := scope, pfx := Place.record.number, key := k, value := v } := by
  rw [C73_attr, h]
  rintro ⟨-, h, -⟩
  exact h ⟨trivial, rfl⟩

/-- **C73.** A scan with documented filters matches exactly the samples of its signal whose payload passes each of them. -/
theorem C73_matches (o : Offered) (sc : Scan) (as : List Ask) (hne : as ≠ []) (hf : sc.filters = as.map Ask.filter) :
    o.Matches sc ↔ scopeOf o.sample.data = sc.scope ∧ ∀ a ∈ as, Passes o.sample.data a := by
  have hn : sc.filters ≠ [] := by rw [hf]; intro h; exact hne (List.map_eq_nil_iff.1 h)
  have hl : ∀ a : Ask, ∃ l, a.filter.label sc.scope = some l ∧ (o.Has l ↔ scopeOf o.sample.data = sc.scope ∧ Passes o.sample.data a) := by
    intro a
    cases a with
    | field f s => exact ⟨_, rfl, C73_field o sc.scope f s⟩
    | attr p k v => exact ⟨_, rfl, C73_attr o sc.scope p k v⟩
  have hasked : ∀ l, l ∈ sc.asked ↔ ∃ a ∈ as, a.filter.label sc.scope = some l := by
    intro l
    unfold Scan.asked
    rw [if_neg hn, hf, List.mem_filterMap]
    constructor
    · rintro ⟨f, h1, h2⟩; obtain ⟨a, ha, rfl⟩ := List.mem_map.1 h1; exact ⟨a, ha, h2⟩
    · rintro ⟨a, ha, h⟩; exact ⟨_, List.mem_map.2 ⟨a, ha, rfl⟩, h⟩
  obtain ⟨a0, ha0⟩ := List.exists_mem_of_ne_nil _ hne
  unfold Offered.Matches
  constructor
  · rintro ⟨-, h⟩
    have key : ∀ a ∈ as, scopeOf o.sample.data = sc.scope ∧ Passes o.sample.data a := by
      intro a ha
      obtain ⟨l, h1, h2⟩ := hl a
      exact h2.1 (h l ((hasked l).2 ⟨a, ha, h1⟩))
    exact ⟨(key a0 ha0).1, fun a ha => (key a ha).2⟩
  · rintro ⟨h1, h2⟩
    refine ⟨?_, fun l hm => ?_⟩
    · obtain ⟨l, h3, -⟩ := hl a0
      exact List.ne_nil_of_mem ((hasked l).2 ⟨a0, ha0, h3⟩)
    · obtain ⟨a, ha, h3⟩ := (hasked l).1 hm
      obtain ⟨l', h4, h5⟩ := hl a
      rw [h3] at h4; cases h4
      exact h5.2 ⟨h1, h2 a ha⟩

/-- **C73.** A scan without filters matches the samples that were processed while its signal was in force (C20). -/
theorem C73_unfiltered (o : Offered) (sc : Scan) (hf : sc.filters = []) : o.Matches sc ↔ o.res = sc.scope := by
  have ha : sc.asked = [{ resource := sc.scope }] := by unfold Scan.asked; rw [if_pos hf]
  have hno : ∀ l, Carries o.sample.data l → l.pfx ≠ 0 := by
    intro l hc h0
    have hg : Gives (Carries o.sample.data) l.resource 0 (labelText l.key l.value) := ⟨l, hc, rfl, h0, rfl⟩
    revert hg
    cases o.sample.data with
    | none => rintro ⟨l, h, -⟩; exact h
    | metrics rs =>
      show Gives (GroupLabel Res.metrics MetricLabel rs) _ _ _ → _
      rw [gives_group]; simp [gives_metric]
    | logs rs =>
      show Gives (GroupLabel Res.logs LogLabel rs) _ _ _ → _
      rw [gives_group]; simp [gives_log]
    | traces rs =>
      show Gives (GroupLabel Res.traces SpanLabel rs) _ _ _ → _
      rw [gives_group]; simp [gives_span]
  unfold Offered.Matches
  rw [ha]
  constructor
  · rintro ⟨-, h⟩
    obtain ⟨l', h1, h2⟩ := h _ List.mem_cons_self
    have h3 := (C01_label_encode_eq_iff _ _).1 h2
    rcases h1 with h1 | rfl
    · exact absurd h3.2.1 (hno l' h1)
    · exact h3.1
  · intro hr
    refine ⟨by simp, fun l hl => ?_⟩
    rw [List.mem_singleton] at hl
    subst hl
    exact ⟨_, .inr rfl, by rw [hr]⟩

/-! ## Examples -/

/-- A span with an id and an attribute. -/
def aSpan : Data := .traces [{ resource := some ⟨[⟨[104], some (.str [49])⟩]⟩, scopes := [{ items := [{ name := [110], traceId := some [0xAB, 0x01], start := 1, stop := 2, attrs := [⟨[107], some (.str [118])⟩] }] }] }]

/-- It passes filters on its resource attribute and its trace id in lower case, and not one on the id in upper case. -/
example (r : Int) : (Offered.mk r { id := 0, data := aSpan } true).Matches
    { scope := 2, filters := [.attr 1 [104] [49], .base 8 [97, 98, 48, 49]] } := by
  refine (C73_matches _ _ [.attr .resource [104] [49], .field .traceId [97, 98, 48, 49]] (by simp) rfl).2 ⟨rfl, ?_⟩
  intro a ha
  simp only [List.mem_cons, List.not_mem_nil, or_false] at ha
  rcases ha with rfl | rfl
  · exact ⟨fun h => (nomatch h.2), [104], [49], .inl ⟨_, List.mem_cons_self, _, rfl, List.mem_cons_self⟩, by simp, rfl⟩
  · refine ⟨.inr ⟨_, ⟨_, List.mem_cons_self, _, List.mem_cons_self, List.mem_cons_self⟩, [0xAB, 0x01], rfl, (hexText_iff _ _).2 (by decide)⟩, fun h => (nomatch h)⟩

/-- Filters on ids in upper case select nothing (although `C73_hexDecode` accepts them when records are filtered). -/
theorem C73_upper_case (o : Offered) (scope : Int) (f : Field) (hf : f = .traceId ∨ f = .spanId ∨ f = .parentSpanId) (s : Bytes)
    (hs : ∃ c ∈ s, 65 ≤ c.toNat ∧ c.toNat ≤ 90) : ¬ o.Has { resource := scope, pfx := f.number, key := s } := by
  rw [C73_field]
  rintro ⟨-, h, -⟩
  have hid : ∃ id, IdText id s := by
    rcases hf with rfl | rfl | rfl <;> (revert h; cases o.sample.data <;> simp [Shows, GroupText] <;> grind)
  obtain ⟨id, b, -, hb⟩ := hid
  have hlow : ∀ c ∈ s, c ∈ lower := by
    clear h hs
    induction hb with
    | nil => simp
    | cons hi lo _ ih =>
      obtain ⟨ds, hd, e1⟩ := hi
      obtain ⟨ds', hd', e2⟩ := lo
      rw [List.mem_singleton] at hd hd'
      subst hd hd'
      intro c hc
      rcases List.mem_cons.1 hc with rfl | hc
      · exact List.mem_of_getElem? e1
      · rcases List.mem_cons.1 hc with rfl | hc
        · exact List.mem_of_getElem? e2
        · exact ih c hc
  obtain ⟨c, hc, h1, h2⟩ := hs
  have : ∀ c ∈ lower, ¬ (65 ≤ c.toNat ∧ c.toNat ≤ 90) := by decide
  exact this c (hlow c hc) ⟨h1, h2⟩

end Verif.Flt
