import Verif.Spec.RenderShape
import Verif.Props.Render
/-! # C70, exactly: when two attribute lists have the same text -/
namespace Verif.Rd

mutual
/-- The text of a shape. -/
def write (F : Fmt) : Shape → Bytes
  | .word t => t
  | .str s => F.quote s
  | .array l => 91 :: (writes F true l ++ [93])
  | .kvs l => 123 :: (writePairs F true l ++ (if l.isEmpty then [125] else [32, 125]))
def writes (F : Fmt) (first : Bool) : List Shape → Bytes
  | [] => []
  | s :: l => (if first then [] else [44, 32]) ++ write F s ++ writes F false l
def writePairs (F : Fmt) (first : Bool) : List (Bytes × Shape) → Bytes
  | [] => []
  | (k, s) :: l => (if first then [32] else [44, 32]) ++ k ++ [32, 61, 32] ++ write F s ++ writePairs F false l
end

theorem writes_bare (F : Fmt) (l : List Shape) : writes F true (bare l) = writes F true l := by
  unfold bare
  split
  · simp [writes, write]
  · rfl

theorem shapePairs_isEmpty (F : Fmt) (l : List (Bytes × Any)) : (shapePairs F l).isEmpty = l.isEmpty := by
  cases l <;> simp [shapePairs]

mutual
theorem value_write (F : Fmt) : ∀ v : Any, Spaceless v → value F v = some (write F (shape F v))
  | .nil, h => h.elim
  | .unset, _ => by simp [value, shape, write]
  | .str _, _ => by simp [value, shape, write]
  | .bool _, _ => by simp [value, shape, write]
  | .int _, _ => by simp [value, shape, write]
  | .double _, _ => by simp [value, shape, write]
  | .bytes _, _ => by simp [value, shape, write]
  | .array l, h => by
    have := elems_write F l true h
    simp [value, shape, write, this, writes_bare]
  | .kvs l, h => by
    have := pairs_write F l true h
    simp only [value, shape, write, this, Option.map_some, shapePairs_isEmpty]
theorem elems_write (F : Fmt) : ∀ (l : List Any) (f : Bool), SpacelessAll l → elems F f l = some (writes F f (shapes F l))
  | [], _, _ => by simp [elems, shapes, writes]
  | a :: l, f, h => by
    have h1 := value_write F a h.1
    have h2 := elems_write F l false h.2
    simp [elems, shapes, writes, h1, h2]
theorem pairs_write (F : Fmt) : ∀ (l : List (Bytes × Any)) (f : Bool), SpacelessPairs l → pairs F f l = some (writePairs F f (shapePairs F l))
  | [], _, _ => by simp [pairs, shapePairs, writePairs]
  | (k, a) :: l, f, h => by
    have h1 := value_write F a h.2.1
    have h2 := pairs_write F l false h.2.2
    simp [pairs, shapePairs, writePairs, h1, h2]
end

/-- A character of a word. -/
def WordChar (c : UInt8) : Prop := c ≠ 32 ∧ c ≠ 44 ∧ c ≠ 93 ∧ c ≠ 34 ∧ c ≠ 91 ∧ c ≠ 123

mutual
/-- The shapes of values. -/
def Shape.Good : Shape → Prop
  | .word t => ∀ c ∈ t, WordChar c
  | .str _ => True
  | .array l => l ≠ [.word []] ∧ Shape.GoodAll l
  | .kvs l => Shape.GoodPairs l
def Shape.GoodAll : List Shape → Prop
  | [] => True
  | s :: l => s.Good ∧ Shape.GoodAll l
def Shape.GoodPairs : List (Bytes × Shape) → Prop
  | [] => True
  | (k, s) :: l => (∀ c ∈ k, c ≠ 32) ∧ s.Good ∧ Shape.GoodPairs l
end

theorem hexDigit_word : ∀ d < 16, WordChar (hexDigit d) := by unfold WordChar; decide

theorem hex_word (b : Bytes) : ∀ c ∈ hex b, WordChar c := by
  intro c hc
  obtain ⟨d, -, h⟩ := List.mem_flatMap.1 hc
  have hd := d.toNat_lt
  simp only [List.mem_cons, List.not_mem_nil, or_false] at h
  rcases h with rfl | rfl <;> exact hexDigit_word _ (by omega)

theorem decInt_word (i : Int) : ∀ c ∈ decInt i, WordChar c := fun c hc => by
  have := num_ne (decInt_chars i c hc)
  exact ⟨this.1, this.2.1, this.2.2.1, this.2.2.2.1, this.2.2.2.2.2.2.1, this.2.2.2.2.2.2.2⟩

theorem boolText_word (b : Bool) : ∀ c ∈ boolText b, WordChar c := by unfold WordChar; cases b <;> decide

theorem bare_good {l : List Shape} (h : Shape.GoodAll l) : bare l ≠ [.word []] ∧ Shape.GoodAll (bare l) := by
  unfold bare
  split
  · exact ⟨by simp, trivial⟩
  · rename_i hne
    exact ⟨hne, h⟩

mutual
theorem shape_good {F : Fmt} (hW : F.Words) : ∀ v : Any, Spaceless v → (shape F v).Good
  | .nil, h => h.elim
  | .unset, _ => by intro c hc; simp at hc
  | .str _, _ => trivial
  | .bool b, _ => boolText_word b
  | .int i, _ => decInt_word i
  | .double d, _ => hW d
  | .bytes b, _ => hex_word b
  | .array l, h => bare_good (shapes_good hW l h)
  | .kvs l, h => shapePairs_good hW l h
theorem shapes_good {F : Fmt} (hW : F.Words) : ∀ l : List Any, SpacelessAll l → Shape.GoodAll (shapes F l)
  | [], _ => trivial
  | a :: l, h => ⟨shape_good hW a h.1, shapes_good hW l h.2⟩
theorem shapePairs_good {F : Fmt} (hW : F.Words) : ∀ l : List (Bytes × Any), SpacelessPairs l → Shape.GoodPairs (shapePairs F l)
  | [], _ => trivial
  | (_, a) :: l, h => ⟨h.1, shape_good hW a h.2.1, shapePairs_good hW l h.2.2⟩
end

/-- A word is not mistaken for something that begins with a quote, a bracket or a brace. -/
theorem word_ne {t r u : Bytes} {c : UInt8} (hc : c = 34 ∨ c = 91 ∨ c = 123) (ht : ∀ c ∈ t, WordChar c) (hr : Ends r) : t ++ r ≠ c :: u := by
  intro h
  cases t with
  | nil =>
    rcases hr with rfl | ⟨d, v, rfl, hd⟩
    · cases h
    · cases h
      rcases hc with rfl | rfl | rfl <;> revert hd <;> decide
  | cons d t =>
    cases h
    have := ht c List.mem_cons_self
    unfold WordChar at this
    rcases hc with rfl | rfl | rfl <;> simp at this

theorem write_head {F : Fmt} (hF : F.Quotes) {s : Shape} (h : s.Good) : s = .word [] ∨ ∃ c t, write F s = c :: t ∧ c ≠ 93 := by
  cases s with
  | word t =>
    cases t with
    | nil => exact .inl rfl
    | cons c t => exact .inr ⟨c, t, rfl, (h c List.mem_cons_self).2.2.1⟩
  | str s => obtain ⟨t, ht⟩ := hF.begins s; exact .inr ⟨34, t, ht, by decide⟩
  | array l => exact .inr ⟨91, _, rfl, by decide⟩
  | kvs l => exact .inr ⟨123, _, rfl, by decide⟩

theorem writes_ends (F : Fmt) (l : List Shape) (r : Bytes) : Ends (writes F false l ++ 93 :: r) := by
  cases l with
  | nil => exact .inr ⟨93, r, by simp [writes], by simp⟩
  | cons x l => exact .inr ⟨44, 32 :: (write F x ++ writes F false l ++ 93 :: r), by simp [writes], by simp⟩

theorem writePairs_ends (F : Fmt) (l : List (Bytes × Shape)) (r : Bytes) : Ends (writePairs F false l ++ ([32, 125] ++ r)) := by
  cases l with
  | nil => exact .inr ⟨32, 125 :: r, by simp [writePairs], by simp⟩
  | cons x l => exact .inr ⟨44, 32 :: (x.1 ++ [32, 61, 32] ++ write F x.2 ++ writePairs F false l ++ ([32, 125] ++ r)), by simp [writePairs], by simp⟩

/-- What closes a list of pairs. -/
def shut (f : Bool) (l : List (Bytes × Shape)) : Bytes := match f, l with
  | true, [] => [125]
  | _, _ => [32, 125]

mutual
theorem write_inj {F : Fmt} (hF : F.Quotes) : ∀ (s s' : Shape) (r r' : Bytes), s.Good → s'.Good → Ends r → Ends r' →
    write F s ++ r = write F s' ++ r' → s = s' ∧ r = r'
  | .word t, .word t', r, r', hs, hs', hr, hr', h => by
    have hch : ∀ {t : Bytes}, (∀ c ∈ t, WordChar c) → ∀ c ∈ t, c ≠ 32 ∧ c ≠ 44 ∧ c ≠ 93 := fun ht c hc => ⟨(ht c hc).1, (ht c hc).2.1, (ht c hc).2.2.1⟩
    simp only [write] at h
    obtain ⟨rfl, h2⟩ := stop (hch hs) (hch hs') hr hr' h
    exact ⟨rfl, h2⟩
  | .word t, .str s, r, r', hs, _, hr, _, h => by
    obtain ⟨u, hu⟩ := hF.begins s
    simp only [write, hu, List.cons_append] at h
    exact absurd h (word_ne (.inl rfl) hs hr)
  | .word t, .array l, r, r', hs, _, hr, _, h => by
    simp only [write, List.cons_append] at h
    exact absurd h (word_ne (.inr (.inl rfl)) hs hr)
  | .word t, .kvs l, r, r', hs, _, hr, _, h => by
    simp only [write, List.cons_append] at h
    exact absurd h (word_ne (.inr (.inr rfl)) hs hr)
  | .str s, .word t, r, r', _, hs, _, hr, h => by
    obtain ⟨u, hu⟩ := hF.begins s
    simp only [write, hu, List.cons_append] at h
    exact absurd h.symm (word_ne (.inl rfl) hs hr)
  | .array l, .word t, r, r', _, hs, _, hr, h => by
    simp only [write, List.cons_append] at h
    exact absurd h.symm (word_ne (.inr (.inl rfl)) hs hr)
  | .kvs l, .word t, r, r', _, hs, _, hr, h => by
    simp only [write, List.cons_append] at h
    exact absurd h.symm (word_ne (.inr (.inr rfl)) hs hr)
  | .str s, .str t, r, r', _, _, _, _, h => by
    simp only [write] at h
    obtain ⟨rfl, h2⟩ := hF.ends _ _ _ _ h
    exact ⟨rfl, h2⟩
  | .str s, .array l, r, r', _, _, _, _, h => by
    obtain ⟨u, hu⟩ := hF.begins s
    simp [write, hu] at h
  | .str s, .kvs l, r, r', _, _, _, _, h => by
    obtain ⟨u, hu⟩ := hF.begins s
    simp [write, hu] at h
  | .array l, .str s, r, r', _, _, _, _, h => by
    obtain ⟨u, hu⟩ := hF.begins s
    simp [write, hu] at h
  | .kvs l, .str s, r, r', _, _, _, _, h => by
    obtain ⟨u, hu⟩ := hF.begins s
    simp [write, hu] at h
  | .array l, .kvs l', r, r', _, _, _, _, h => by simp [write] at h
  | .kvs l, .array l', r, r', _, _, _, _, h => by simp [write] at h
  | .array l, .array l', r, r', hs, hs', _, _, h => by
    simp only [write, List.cons_append, List.append_assoc, List.cons.injEq, true_and, List.nil_append] at h
    obtain ⟨rfl, h2⟩ := writes_inj hF l l' true r r' hs.2 hs'.2 (fun _ => ⟨hs.1, hs'.1⟩) h
    exact ⟨rfl, h2⟩
  | .kvs l, .kvs l', r, r', hs, hs', _, _, h => by
    simp only [write, List.cons_append, List.append_assoc, List.cons.injEq, true_and] at h
    have hc : ∀ l : List (Bytes × Shape), (if l.isEmpty = true then [125] else [32, 125]) = shut true l := by intro l; cases l <;> rfl
    rw [hc, hc] at h
    obtain ⟨rfl, h2⟩ := writePairs_inj hF l l' true r r' hs hs' h
    exact ⟨rfl, h2⟩
theorem writes_inj {F : Fmt} (hF : F.Quotes) : ∀ (l l' : List Shape) (f : Bool) (r r' : Bytes), Shape.GoodAll l → Shape.GoodAll l' →
    (f = true → l ≠ [.word []] ∧ l' ≠ [.word []]) → writes F f l ++ 93 :: r = writes F f l' ++ 93 :: r' → l = l' ∧ r = r'
  | [], [], f, r, r', _, _, _, h => by simpa [writes] using h
  | [], s :: l', f, r, r', _, hl', hb, h => by
    cases f with
    | false => simp [writes] at h
    | true =>
      simp only [writes, List.nil_append, if_true, List.append_assoc] at h
      rcases write_head hF hl'.1 with rfl | ⟨c, t, e, hc⟩
      · cases l' with
        | nil => exact absurd rfl (hb rfl).2
        | cons x l' => simp [write, writes] at h
      · rw [e] at h
        simp only [List.cons_append, List.cons.injEq] at h
        exact absurd h.1.symm hc
  | s :: l, [], f, r, r', hl, _, hb, h => by
    cases f with
    | false => simp [writes] at h
    | true =>
      simp only [writes, List.nil_append, if_true, List.append_assoc] at h
      rcases write_head hF hl.1 with rfl | ⟨c, t, e, hc⟩
      · cases l with
        | nil => exact absurd rfl (hb rfl).1
        | cons x l' => simp [write, writes] at h
      · rw [e] at h
        simp only [List.cons_append, List.cons.injEq] at h
        exact absurd h.1 hc
  | s :: l, s' :: l', f, r, r', hl, hl', _, h => by
    simp only [writes, List.append_assoc] at h
    have h := List.append_cancel_left h
    obtain ⟨rfl, h3⟩ := write_inj hF s s' _ _ hl.1 hl'.1 (writes_ends F l r) (writes_ends F l' r') h
    obtain ⟨rfl, h2⟩ := writes_inj hF l l' false r r' hl.2 hl'.2 (fun e => by cases e) h3
    exact ⟨rfl, h2⟩
theorem writePairs_inj {F : Fmt} (hF : F.Quotes) : ∀ (l l' : List (Bytes × Shape)) (f : Bool) (r r' : Bytes), Shape.GoodPairs l → Shape.GoodPairs l' →
    writePairs F f l ++ (shut f l ++ r) = writePairs F f l' ++ (shut f l' ++ r') → l = l' ∧ r = r'
  | [], [], f, r, r', _, _, h => by
    simp only [writePairs, List.nil_append] at h
    exact ⟨rfl, List.append_cancel_left (as := shut f []) h⟩
  | [], (k, s) :: l', f, r, r', _, _, h => by cases f <;> simp [writePairs, shut] at h
  | (k, s) :: l, [], f, r, r', _, _, h => by cases f <;> simp [writePairs, shut] at h
  | (k, s) :: l, (k', s') :: l', f, r, r', hl, hl', h => by
    have hc : ∀ (x : Bytes × Shape) (l : List (Bytes × Shape)), shut f (x :: l) = [32, 125] := by intro x l; cases f <;> rfl
    have hc' : ∀ (l : List (Bytes × Shape)), shut false l = [32, 125] := by intro l; rfl
    rw [hc, hc] at h
    simp only [writePairs, List.append_assoc] at h
    have h3 := List.append_cancel_left h
    have h4 := split_sep hl.1 hl'.1 (by simpa using h3)
    obtain ⟨rfl, h5⟩ := h4
    simp only [List.cons.injEq, true_and] at h5
    obtain ⟨rfl, h6⟩ := write_inj hF s s' (writePairs F false l ++ ([32, 125] ++ r)) (writePairs F false l' ++ ([32, 125] ++ r')) hl.2.1 hl'.2.1
      (writePairs_ends F l r) (writePairs_ends F l' r') (by simpa using h5)
    obtain ⟨rfl, h7⟩ := writePairs_inj hF l l' false r r' hl.2.2 hl'.2.2 (by rw [hc', hc']; exact h6)
    exact ⟨rfl, h7⟩
end

/-- **C70**, exactly: attributes without nil values and with keys without spaces have the same text exactly if they look the same: the same
keys in the same order, and the same values up to what a word stands for (the integer 12, the double 12, the byte 18, an unset value
or no bytes) and an array of one empty word for none. -/
theorem C70_exact {F : Fmt} (hF : F.Quotes) (hW : F.Words) {l l' : List (Bytes × Any)} (h : SpacelessPairs l) (h' : SpacelessPairs l') :
    attr F l = attr F l' ↔ shapePairs F l = shapePairs F l' := by
  have e1 := value_write F (.kvs l) h
  have e2 := value_write F (.kvs l') h'
  have g1 := shape_good hW (.kvs l) h
  have g2 := shape_good hW (.kvs l') h'
  unfold attr
  rw [e1, e2, Option.some.injEq]
  constructor
  · intro e
    have := (write_inj hF _ _ [] [] g1 g2 (.inl rfl) (.inl rfl) (by rw [e])).1
    simp only [shape, Shape.kvs.injEq] at this
    exact this
  · intro e
    simp only [shape, e]

theorem parts_none (first : Bool) (ts : List (Option Bytes)) : parts first ts = none ↔ none ∈ ts := by
  induction ts generalizing first with
  | nil => simp [parts]
  | cons t ts ih =>
    cases t with
    | none => simp [parts]
    | some t => simp [parts, ih]

theorem lines_none (O : Out) (u : Bytes) (pts : List Point) : lines O u pts = none ↔ ∃ p ∈ pts, attr O.toFmt p.attrs = none := by
  induction pts with
  | nil => simp [lines]
  | cons p pts ih =>
    have : (∃ q ∈ p :: pts, attr O.toFmt q.attrs = none) ↔ attr O.toFmt p.attrs = none ∨ lines O u pts = none := by
      rw [ih]; simp
    rw [this]
    simp only [lines, line]
    cases attr O.toFmt p.attrs <;> cases lines O u pts <;> simp

theorem metric_none (O : Out) (o : Opts) (m : Metric) :
    metric O o m = none ↔ ∃ pts, (m.data = .gauge pts ∨ m.data = .sum pts) ∧ ∃ p ∈ pts, attr O.toFmt p.attrs = none := by
  unfold metric numeric
  cases hd : m.data with
  | gauge pts => simp [lines_none]
  | sum pts => simp [lines_none]
  | other _ => simp

theorem scopeText_none (O : Out) (o : Opts) (sc : Scope) : scopeText O o sc = none ↔
    (o.scope = true ∧ attr O.toFmt sc.attrs = none) ∨ ∃ m ∈ sc.metrics, metric O o m = none := by
  have hp := parts_none true (sc.metrics.map (metric O o))
  rw [List.mem_map] at hp
  rw [← hp]
  unfold scopeText
  cases o.scope <;> cases attr O.toFmt sc.attrs <;> cases parts true (sc.metrics.map (metric O o)) <;> simp

theorem resourceText_none (O : Out) (o : Opts) (rm : Resource) : resourceText O o rm = none ↔
    (o.resource = true ∧ attr O.toFmt rm.attrs = none) ∨ ∃ sc ∈ rm.scopes, scopeText O o sc = none := by
  have hp := parts_none true (rm.scopes.map (scopeText O o))
  rw [List.mem_map] at hp
  rw [← hp]
  unfold resourceText
  cases o.resource <;> cases attr O.toFmt rm.attrs <;> cases parts true (rm.scopes.map (scopeText O o)) <;> simp

/-- **C70.** Printing metrics ends the process exactly if there is a nil value in attributes that are printed: those of points of gauges
and sums always, those of resources and scopes if asked for. -/
theorem C70_crash_all (O : Out) (o : Opts) (md : List Resource) :
    metricsData O o md = none ↔ ∃ l, printed o md l ∧ ¬ NoNilPairs l := by
  unfold metricsData printed
  rw [parts_none, List.mem_map]
  simp only [resourceText_none, scopeText_none, metric_none, C70_crash]
  constructor
  · rintro ⟨rm, hr, ⟨h1, h2⟩ | ⟨sc, hs, ⟨h1, h2⟩ | ⟨m, hm, pts, hd, p, hp, h⟩⟩⟩
    · exact ⟨_, ⟨rm, hr, .inl ⟨h1, rfl⟩⟩, h2⟩
    · exact ⟨_, ⟨rm, hr, .inr ⟨sc, hs, .inl ⟨h1, rfl⟩⟩⟩, h2⟩
    · exact ⟨_, ⟨rm, hr, .inr ⟨sc, hs, .inr ⟨m, hm, pts, hd, p, hp, rfl⟩⟩⟩, h⟩
  · rintro ⟨l, ⟨rm, hr, ⟨h1, rfl⟩ | ⟨sc, hs, ⟨h1, rfl⟩ | ⟨m, hm, pts, hd, p, hp, rfl⟩⟩⟩, h⟩
    · exact ⟨rm, hr, .inl ⟨h1, h⟩⟩
    · exact ⟨rm, hr, .inr ⟨sc, hs, .inl ⟨h1, h⟩⟩⟩
    · exact ⟨rm, hr, .inr ⟨sc, hs, .inr ⟨m, hm, pts, hd, p, hp, h⟩⟩⟩

/-! ## Examples -/

theorem toyFmt_words : toyFmt.Words := fun d c hc => by simp [toyFmt] at hc

example : SpacelessPairs toyAttrs := by simp [toyAttrs, SpacelessPairs, SpacelessAll, Spaceless]

/-- An array of nothing and an array of an unset value. -/
theorem C70_bare (F : Fmt) (k : Bytes) : attr F [(k, .array [])] = attr F [(k, .array [.unset])] := by simp [attr, value, pairs, elems]

/-- One resource with one scope and one gauge: without options, attributes of the resource are not printed, even if they have a nil
value. -/
example (O : Out) : (metricsData O {} [{ attrs := [([97], .nil)], scopes := [{ metrics := [{ data := .gauge [⟨1, 2, toyAttrs⟩] }] }] }]).isSome ∧
    metricsData O { resource := true } [{ attrs := [([97], .nil)] }] = none := by
  constructor
  · rw [Option.isSome_iff_ne_none, ne_eq, C70_crash_all]
    rintro ⟨l, ⟨rm, hr, h⟩, hn⟩
    obtain rfl := List.mem_singleton.1 hr
    rcases h with ⟨h, -⟩ | ⟨sc, hs, ⟨h, -⟩ | ⟨m, hm, pts, hd, p, hp, rfl⟩⟩
    · cases h
    · cases h
    · obtain rfl := List.mem_singleton.1 hs
      obtain rfl := List.mem_singleton.1 hm
      rcases hd with hd | hd
      · cases hd
        obtain rfl := List.mem_singleton.1 hp
        exact hn (by simp [toyAttrs, NoNilPairs, NoNilAll, NoNil])
      · cases hd
  · rfl

end Verif.Rd
