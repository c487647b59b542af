import Verif.Spec.Render
import Verif.Lemmas.Bytes
import Verif.Lemmas.Time
/-! # C70: attributes as text -/
namespace Verif.Rd

/-- What follows a value in the text: nothing, a space, a comma or a bracket. -/
def Ends (r : Bytes) : Prop := r = [] ∨ ∃ c t, r = c :: t ∧ (c = 32 ∨ c = 44 ∨ c = 93)

theorem stop {xs ys r r' : Bytes} (hx : ∀ c ∈ xs, c ≠ 32 ∧ c ≠ 44 ∧ c ≠ 93) (hy : ∀ c ∈ ys, c ≠ 32 ∧ c ≠ 44 ∧ c ≠ 93) (hr : Ends r) (hr' : Ends r')
    (h : xs ++ r = ys ++ r') : xs = ys ∧ r = r' := by
  have no : ∀ {c : UInt8} {t r : Bytes}, Ends r → (c ≠ 32 ∧ c ≠ 44 ∧ c ≠ 93) → r ≠ c :: t := by
    rintro c t r (rfl | ⟨d, u, rfl, hd⟩) hc he
    · cases he
    · cases he; rcases hd with rfl | rfl | rfl <;> simp at hc
  induction xs generalizing ys with
  | nil =>
    cases ys with
    | nil => exact ⟨rfl, h⟩
    | cons c ys => exact absurd h (no hr (hy c List.mem_cons_self))
  | cons c xs ih =>
    cases ys with
    | nil => exact absurd h.symm (no hr' (hx c List.mem_cons_self))
    | cons d ys =>
      simp only [List.cons_append, List.cons.injEq] at h
      obtain ⟨rfl, h⟩ := h
      obtain ⟨rfl, h2⟩ := ih (fun c hc => hx c (List.mem_cons_of_mem _ hc)) (fun c hc => hy c (List.mem_cons_of_mem _ hc)) h
      exact ⟨rfl, h2⟩

theorem decInt_chars (i : Int) : ∀ c ∈ decInt i, c = 45 ∨ isDigit c := by
  intro c hc
  cases i with
  | ofNat n => exact .inr (dec_digits n c hc)
  | negSucc n =>
    rcases List.mem_cons.1 hc with rfl | hc
    · exact .inl rfl
    · exact .inr (dec_digits _ c hc)

theorem decInt_head (i : Int) : ∃ c t, decInt i = c :: t ∧ (c = 45 ∨ isDigit c) := by
  cases h : decInt i with
  | nil =>
    cases i with
    | ofNat n => exact absurd h (dec_ne_nil n)
    | negSucc n => cases h
  | cons c t => exact ⟨c, t, rfl, decInt_chars i c (by rw [h]; exact List.mem_cons_self)⟩

theorem num_ne {c : UInt8} (h : c = 45 ∨ isDigit c) : c ≠ 32 ∧ c ≠ 44 ∧ c ≠ 93 ∧ c ≠ 34 ∧ c ≠ 116 ∧ c ≠ 102 ∧ c ≠ 91 ∧ c ≠ 123 := by
  refine ⟨?_, ?_, ?_, ?_, ?_, ?_, ?_, ?_⟩ <;> rintro rfl <;> rcases h with h | h <;> revert h <;> simp [isDigit] <;> decide

/-- The kind of a value, by the first character of its text. -/
def Starts : Any → UInt8 → Prop
  | .str _, c => c = 34
  | .bool true, c => c = 116
  | .bool false, c => c = 102
  | .int _, c => c = 45 ∨ isDigit c
  | .array _, c => c = 91
  | .kvs _, c => c = 123
  | _, _ => False

theorem starts {F : Fmt} (hF : F.Quotes) {v : Any} (hv : Plain v) {a : Bytes} (h : value F v = some a) : ∃ c t, a = c :: t ∧ Starts v c := by
  cases v with
  | nil => exact hv.elim
  | unset => exact hv.elim
  | double _ => exact hv.elim
  | bytes _ => exact hv.elim
  | str s => obtain ⟨t, ht⟩ := hF.begins s; cases h; exact ⟨34, t, ht, rfl⟩
  | bool b => cases h; cases b <;> exact ⟨_, _, rfl, rfl⟩
  | int i => cases h; obtain ⟨c, t, h1, h2⟩ := decInt_head i; exact ⟨c, t, h1, h2⟩
  | array l =>
    simp only [value, Option.map_eq_some_iff] at h
    obtain ⟨t, -, rfl⟩ := h
    exact ⟨_, _, rfl, rfl⟩
  | kvs l =>
    simp only [value, Option.map_eq_some_iff] at h
    obtain ⟨t, -, rfl⟩ := h
    exact ⟨_, _, rfl, rfl⟩

theorem start_ne {v : Any} {c : UInt8} (h : Starts v c) : c ≠ 32 ∧ c ≠ 44 ∧ c ≠ 93 := by
  cases v with
  | nil => exact h.elim
  | unset => exact h.elim
  | double _ => exact h.elim
  | bytes _ => exact h.elim
  | str s => cases h; decide
  | bool b => cases b <;> cases h <;> decide
  | int i => have := num_ne h; exact ⟨this.1, this.2.1, this.2.2.1⟩
  | array l => cases h; decide
  | kvs l => cases h; decide

/-- Values with the same first character are of the same kind. -/
inductive Kin : Any → Any → Prop
  | str (s t : Bytes) : Kin (.str s) (.str t)
  | bool (b : Bool) : Kin (.bool b) (.bool b)
  | int (i j : Int) : Kin (.int i) (.int j)
  | array (l l' : List Any) : Kin (.array l) (.array l')
  | kvs (l l' : List (Bytes × Any)) : Kin (.kvs l) (.kvs l')

theorem kin {v w : Any} {c : UInt8} (h : Starts v c) (h' : Starts w c) : Kin v w := by
  rcases v with _ | _ | s | (_ | _) | i | _ | _ | l | l <;> rcases w with _ | _ | s' | (_ | _) | i' | _ | _ | l' | l' <;>
    simp only [Starts] at h h' <;>
    first
    | contradiction
    | constructor
    | (exfalso; have := num_ne h; simp only [h'] at this; simp at this)
    | (exfalso; have := num_ne h'; simp only [h] at this; simp at this)
    | (exfalso; rw [h] at h'; revert h'; decide)

/-- What closes a list of pairs. -/
def close (f : Bool) (l : List (Bytes × Any)) : Bytes := match f, l with
  | true, [] => [125]
  | _, _ => [32, 125]

mutual
theorem value_inj {F : Fmt} (hF : F.Quotes) : ∀ (v w : Any) (a b r r' : Bytes), Plain v → Plain w → value F v = some a → value F w = some b → Ends r →
    Ends r' → a ++ r = b ++ r' → v = w ∧ r = r'
  | v, w, a, b, r, r', hv, hw, ha, hb, hr, hr', h => by
    obtain ⟨c, t, ea, hc⟩ := starts hF hv ha
    obtain ⟨d, u, eb, hd⟩ := starts hF hw hb
    have hcd : c = d := by rw [ea, eb] at h; simp only [List.cons_append, List.cons.injEq] at h; exact h.1
    subst hcd
    have hk := kin hc hd
    clear hc hd ea eb
    cases v with
    | nil => exact hv.elim
    | unset => exact hv.elim
    | double _ => exact hv.elim
    | bytes _ => exact hv.elim
    | str s =>
      cases hk
      cases ha; cases hb
      obtain ⟨rfl, h2⟩ := hF.ends _ _ _ _ h
      exact ⟨rfl, h2⟩
    | bool s =>
      cases hk
      cases ha; cases hb
      exact ⟨rfl, List.append_cancel_left h⟩
    | int i =>
      cases hk with
      | int _ j =>
      cases ha; cases hb
      have hch : ∀ i : Int, ∀ c ∈ decInt i, c ≠ 32 ∧ c ≠ 44 ∧ c ≠ 93 := fun i c hc => by
        have := num_ne (decInt_chars i c hc); exact ⟨this.1, this.2.1, this.2.2.1⟩
      obtain ⟨h1, h2⟩ := stop (hch i) (hch j) hr hr' h
      exact ⟨by rw [decInt_injective h1], h2⟩
    | array l =>
      cases hk with
      | array _ l' =>
      simp only [value, Option.map_eq_some_iff] at ha hb
      obtain ⟨ta, ha, rfl⟩ := ha
      obtain ⟨tb, hb, rfl⟩ := hb
      simp only [List.cons_append, List.append_assoc, List.cons.injEq, true_and, List.nil_append] at h
      obtain ⟨rfl, h2⟩ := elems_inj hF l l' true ta tb r r' hv hw ha hb h
      exact ⟨rfl, h2⟩
    | kvs l =>
      cases hk with
      | kvs _ l' =>
      simp only [value, Option.map_eq_some_iff] at ha hb
      obtain ⟨ta, ha, rfl⟩ := ha
      obtain ⟨tb, hb, rfl⟩ := hb
      simp only [List.cons_append, List.append_assoc, List.cons.injEq, true_and] at h
      have hc : ∀ l : List (Bytes × Any), (if l.isEmpty = true then [125] else [32, 125]) = close true l := by intro l; cases l <;> rfl
      rw [hc, hc] at h
      obtain ⟨rfl, h2⟩ := pairs_inj hF l l' true ta tb r r' hv hw ha hb h
      exact ⟨rfl, h2⟩
theorem elems_inj {F : Fmt} (hF : F.Quotes) : ∀ (l l' : List Any) (f : Bool) (a b r r' : Bytes), PlainAll l → PlainAll l' → elems F f l = some a →
    elems F f l' = some b → a ++ 93 :: r = b ++ 93 :: r' → l = l' ∧ r = r'
  | [], [], f, a, b, r, r', _, _, ha, hb, h => by
    simp only [elems, Option.some.injEq] at ha hb
    subst ha hb
    simpa using h
  | [], w :: l', f, a, b, r, r', _, hl', ha, hb, h => by
    simp only [elems, Option.some.injEq, Option.bind_eq_some_iff, Option.map_eq_some_iff] at ha hb
    obtain ⟨t, ht, u, hu, rfl⟩ := hb
    subst ha
    obtain ⟨c, t', rfl, hc⟩ := starts hF hl'.1 ht
    cases f <;> simp at h
    exact absurd h.1.symm (start_ne hc).2.2
  | v :: l, [], f, a, b, r, r', hl, _, ha, hb, h => by
    simp only [elems, Option.some.injEq, Option.bind_eq_some_iff, Option.map_eq_some_iff] at ha hb
    obtain ⟨t, ht, u, hu, rfl⟩ := ha
    subst hb
    obtain ⟨c, t', rfl, hc⟩ := starts hF hl.1 ht
    cases f <;> simp at h
    exact absurd h.1 (start_ne hc).2.2
  | v :: l, w :: l', f, a, b, r, r', hl, hl', ha, hb, h => by
    simp only [elems, Option.bind_eq_some_iff, Option.map_eq_some_iff] at ha hb
    obtain ⟨ta, hta, ua, hua, rfl⟩ := ha
    obtain ⟨tb, htb, ub, hub, rfl⟩ := hb
    have he : ∀ {l : List Any} {u : Bytes} (r : Bytes), elems F false l = some u → Ends (u ++ 93 :: r) := by
      intro l u r hu
      cases l with
      | nil => cases hu; exact .inr ⟨93, r, rfl, by simp⟩
      | cons x l =>
        simp only [elems, Option.bind_eq_some_iff, Option.map_eq_some_iff] at hu
        obtain ⟨t, -, u', -, rfl⟩ := hu
        exact .inr ⟨44, _, rfl, by simp⟩
    simp only [List.append_assoc] at h
    have h := List.append_cancel_left h
    obtain ⟨rfl, h⟩ := value_inj hF v w ta tb _ _ hl.1 hl'.1 hta htb (he r hua) (he r' hub) h
    obtain ⟨rfl, h2⟩ := elems_inj hF l l' false ua ub r r' hl.2 hl'.2 hua hub h
    exact ⟨rfl, h2⟩
theorem pairs_inj {F : Fmt} (hF : F.Quotes) : ∀ (l l' : List (Bytes × Any)) (f : Bool) (a b r r' : Bytes), PlainPairs l → PlainPairs l' →
    pairs F f l = some a → pairs F f l' = some b →
    a ++ (close f l ++ r) = b ++ (close f l' ++ r') → l = l' ∧ r = r'
  | [], [], f, a, b, r, r', _, _, ha, hb, h => by
    simp only [pairs, Option.some.injEq] at ha hb
    subst ha hb
    exact ⟨rfl, List.append_cancel_left (as := close f []) h⟩
  | [], (k, w) :: l', f, a, b, r, r', _, hl', ha, hb, h => by
    simp only [pairs, Option.some.injEq, Option.bind_eq_some_iff, Option.map_eq_some_iff] at ha hb
    obtain ⟨t, ht, u, hu, rfl⟩ := hb
    subst ha
    cases f <;> simp [close] at h
  | (k, v) :: l, [], f, a, b, r, r', hl, _, ha, hb, h => by
    simp only [pairs, Option.some.injEq, Option.bind_eq_some_iff, Option.map_eq_some_iff] at ha hb
    obtain ⟨t, ht, u, hu, rfl⟩ := ha
    subst hb
    cases f <;> simp [close] at h
  | (k, v) :: l, (k', w) :: l', f, a, b, r, r', hl, hl', ha, hb, h => by
    simp only [pairs, Option.bind_eq_some_iff, Option.map_eq_some_iff] at ha hb
    obtain ⟨ta, hta, ua, hua, rfl⟩ := ha
    obtain ⟨tb, htb, ub, hub, rfl⟩ := hb
    have he : ∀ {l : List (Bytes × Any)} {u : Bytes} (r : Bytes), pairs F false l = some u → Ends (u ++ ([32, 125] ++ r)) := by
      intro l u r hu
      cases l with
      | nil => cases hu; exact .inr ⟨32, 125 :: r, rfl, by simp⟩
      | cons x l =>
        obtain ⟨k, x⟩ := x
        simp only [pairs, Option.bind_eq_some_iff, Option.map_eq_some_iff] at hu
        obtain ⟨t, -, u', -, rfl⟩ := hu
        exact .inr ⟨44, _, rfl, by simp⟩
    have hc : ∀ (x : Bytes × Any) (l : List (Bytes × Any)), close f (x :: l) = [32, 125] := by intro x l; cases f <;> rfl
    have hc' : ∀ (l : List (Bytes × Any)), close false l = [32, 125] := by intro l; rfl
    rw [hc, hc] at h
    simp only [List.append_assoc] at h
    have h3 := List.append_cancel_left h
    have h4 := split_sep hl.1 hl'.1 (by simpa using h3)
    obtain ⟨rfl, h5⟩ := h4
    simp only [List.cons.injEq, true_and] at h5
    obtain ⟨rfl, h6⟩ := value_inj hF v w ta tb (ua ++ ([32, 125] ++ r)) (ub ++ ([32, 125] ++ r')) hl.2.1 hl'.2.1 hta htb (he r hua) (he r' hub) (by simpa using h5)
    obtain ⟨rfl, h7⟩ := pairs_inj hF l l' false ua ub r r' hl.2.2 hl'.2.2 hua hub (by rw [hc', hc']; exact h6)
    exact ⟨rfl, h7⟩
end

/-- **C70.** Attributes of strings, booleans, integers, arrays and nested lists with keys without spaces: different attributes have
different text. Missing: doubles, bytes, unset values and keys with spaces (see `C70_number`, `C70_bytes`, `C70_key`). -/
theorem C70_unambiguous_partial {F : Fmt} (hF : F.Quotes) {l l' : List (Bytes × Any)} (h : PlainPairs l) (h' : PlainPairs l')
    (he : attr F l = attr F l') (hs : attr F l ≠ none) : l = l' := by
  cases ha : attr F l with
  | none => exact absurd ha hs
  | some a =>
    have hb : attr F l' = some a := he ▸ ha
    have := (value_inj hF (.kvs l) (.kvs l') a a [] [] h h' ha hb (.inl rfl) (.inl rfl) rfl).1
    cases this; rfl

mutual
theorem value_total (F : Fmt) : ∀ v : Any, value F v ≠ none ↔ NoNil v
  | .nil => by simp [value, NoNil]
  | .unset => by simp [value, NoNil]
  | .str _ => by simp [value, NoNil]
  | .bool _ => by simp [value, NoNil]
  | .int _ => by simp [value, NoNil]
  | .double _ => by simp [value, NoNil]
  | .bytes _ => by simp [value, NoNil]
  | .array l => by
    have := elems_total F l true
    simp only [value, NoNil, ← this]; cases elems F true l <;> simp
  | .kvs l => by
    have := pairs_total F l true
    simp only [value, NoNil, ← this]; cases pairs F true l <;> simp
theorem elems_total (F : Fmt) : ∀ (l : List Any) (f : Bool), elems F f l ≠ none ↔ NoNilAll l
  | [], _ => by simp [elems, NoNilAll]
  | a :: l, f => by
    have h1 := value_total F a
    have h2 := elems_total F l false
    simp only [elems, NoNilAll, ← h1, ← h2]
    cases value F a <;> cases elems F false l <;> simp
theorem pairs_total (F : Fmt) : ∀ (l : List (Bytes × Any)) (f : Bool), pairs F f l ≠ none ↔ NoNilPairs l
  | [], _ => by simp [pairs, NoNilPairs]
  | (k, a) :: l, f => by
    have h1 := value_total F a
    have h2 := pairs_total F l false
    simp only [pairs, NoNilPairs, ← h1, ← h2]
    cases value F a <;> cases pairs F false l <;> simp
end

/-- **C70.** Printing attributes ends the process exactly if some value inside them is nil. -/
theorem C70_crash (F : Fmt) (l : List (Bytes × Any)) : attr F l = none ↔ ¬ NoNilPairs l := by
  have := value_total F (.kvs l)
  simp only [NoNil] at this
  unfold attr
  rw [← this]; simp

theorem contains_iff (sub s : Bytes) : contains sub s = true ↔ ∃ a b, s = a ++ sub ++ b := by
  induction s with
  | nil =>
    simp only [contains, List.isEmpty_iff]
    constructor
    · rintro rfl; exact ⟨[], [], rfl⟩
    · rintro ⟨a, b, h⟩
      have := congrArg List.length h
      simp only [List.length_append, List.length_nil] at this
      exact List.eq_nil_of_length_eq_zero (by omega)
  | cons c s ih =>
    simp only [contains, Bool.or_eq_true, ih, List.isPrefixOf_iff_prefix]
    constructor
    · rintro (⟨b, h⟩ | ⟨a, b, h⟩)
      · exact ⟨[], b, h.symm⟩
      · exact ⟨c :: a, b, by rw [h]; rfl⟩
    · rintro ⟨a, b, h⟩
      cases a with
      | nil => exact .inl ⟨b, h.symm⟩
      | cons d a => exact .inr ⟨a, b, (List.cons.inj h).2⟩

/-- **C70.** The unit of a metric. -/
theorem C70_unit (m : Metric) : UnitText m (unitOf m) := by
  unfold UnitText unitOf
  have h := contains_iff nanoseconds m.description
  refine ⟨fun hu => if_neg fun hc => hu hc.1, fun hu => ⟨fun hd => if_pos ⟨hu, h.2 hd⟩, fun hd => ?_⟩⟩
  rw [if_neg fun hc => hd (h.1 hc.2)]; exact hu

/-- **C70.** Times are printed as the calendar second (UTC) in which they lie. -/
theorem C70_time (ns : Nat) (h : ns < 2 ^ 64) : TimeText ns (dateTime ns) := by
  have hr := Tm.toInt64_range ns h
  unfold TimeText dateTime
  simp only
  generalize Tm.toInt64 ns = x at hr
  obtain ⟨t, hd, ht, -, -⟩ := Tm.isTime_date hr.1 hr.2
  refine ⟨t, Tm.hourOf x, (Tm.unixSec x % 3600 / 60).toNat, (Tm.unixSec x % 60).toNat, ht.1, ht.2.1, ?_, ?_, ?_, ?_⟩
  · unfold Tm.unixSec; omega
  · unfold Tm.unixSec; omega
  · have := ht.2.2.1
    have := ht.2.2.2
    unfold Tm.unixSec
    generalize (t.dayNo : Int) - Cal.epochDay = y at *
    generalize Tm.hourOf x = z at *
    omega
  · rw [hd]; rfl

/-- **C70.** The table of a gauge or sum has one line per point, in order: time (`C70_time`), value with its unit (`C70_unit`),
attributes. -/
theorem C70_lines (O : Out) (o : Opts) (m : Metric) (pts : List Point) (hd : m.data = .gauge pts ∨ m.data = .sum pts) {t : Bytes}
    (h : metric O o m = some t) : ∃ ls, t = metricHead O o m ++ O.table ((heading :: ls).flatMap tableLine) ∧ ls.length = pts.length ∧
      ∀ (i : Nat) (p : Point), pts[i]? = some p → ∃ a, attr O.toFmt p.attrs = some a ∧ ls[i]? = some [dateTime p.time, O.unit p.num (unitOf m), a] := by
  have hl : ∀ {pts : List Point} {ls : List (List Bytes)}, lines O (unitOf m) pts = some ls → ls.length = pts.length ∧
      ∀ (i : Nat) (p : Point), pts[i]? = some p → ∃ a, attr O.toFmt p.attrs = some a ∧ ls[i]? = some [dateTime p.time, O.unit p.num (unitOf m), a] := by
    intro pts
    induction pts with
    | nil => intro ls h; cases h; exact ⟨rfl, by simp⟩
    | cons q pts ih =>
      intro ls h
      simp only [lines, line, Option.bind_eq_some_iff, Option.map_eq_some_iff] at h
      obtain ⟨l, ⟨a, ha, rfl⟩, r, hr, rfl⟩ := h
      obtain ⟨h1, h2⟩ := ih hr
      refine ⟨by simp [h1], fun i p hp => ?_⟩
      cases i with
      | zero => cases hp; exact ⟨a, ha, rfl⟩
      | succ i => exact h2 i p hp
  unfold metric numeric at h
  rcases hd with hd | hd <;> rw [hd] at h <;> simp only [Option.map_map, Option.map_eq_some_iff] at h <;> obtain ⟨ls, hls, rfl⟩ := h <;>
    exact ⟨ls, rfl, hl hls⟩

/-- **C70 is false** of histograms and summaries: whatever their points, the text is the same. -/
theorem C70_hidden (O : Out) (o : Opts) (m : Metric) (raw raw' : List Bytes) :
    metric O o { m with data := .other raw } = metric O o { m with data := .other raw' } := rfl

/-- **C70 is false** of bytes: those of value 18 and the integer 12 have the same text. -/
theorem C70_bytes (F : Fmt) (k : Bytes) : attr F [(k, .bytes [18])] = attr F [(k, .int 12)] ∧ ([(k, .bytes [18])] : List (Bytes × Any)) ≠ [(k, .int 12)] :=
  ⟨rfl, by simp⟩

/-- **C70 is false** of doubles that print like an integer, as Go's do for integers below 1e21. -/
theorem C70_number (F : Fmt) (k : Bytes) (d : Nat) (i : Int) (h : F.double d = decInt i) : attr F [(k, .double d)] = attr F [(k, .int i)] := by
  simp [attr, value, pairs, h]

/-- **C70 is false** of keys with spaces: one pair can look like two. -/
theorem C70_key (F : Fmt) (k k' : Bytes) (b b' : Bool) :
    attr F [(k, .bool b), (k', .bool b')] = attr F [(k ++ [32, 61, 32] ++ boolText b ++ [44, 32] ++ k', .bool b')] := by
  simp [attr, value, pairs]

/-! ## A quoting that meets the hypotheses -/

/-- Quotes and backslashes are preceded by a backslash. -/
def esc : Bytes → Bytes
  | [] => []
  | c :: s => if c = 34 ∨ c = 92 then 92 :: c :: esc s else c :: esc s

/-- The simplest quoting. -/
def toyFmt : Fmt := { quote := fun s => 34 :: (esc s ++ [34]), double := fun _ => [] }

theorem esc_ends : ∀ (s t r r' : Bytes), esc s ++ 34 :: r = esc t ++ 34 :: r' → s = t ∧ r = r'
  | [], [], r, r', h => by simpa [esc] using h
  | [], d :: t, r, r', h => by
    unfold esc at h
    by_cases hd : d = 34 ∨ d = 92
    · rw [if_pos hd] at h; simp [esc] at h
    · rw [if_neg hd] at h; simp [esc] at h; exact absurd (.inl h.1.symm) hd
  | c :: s, [], r, r', h => by
    rw [show esc (c :: s) = if c = 34 ∨ c = 92 then 92 :: c :: esc s else c :: esc s from rfl] at h
    by_cases hd : c = 34 ∨ c = 92
    · rw [if_pos hd] at h; simp [esc] at h
    · rw [if_neg hd] at h; simp [esc] at h; exact absurd (.inl h.1) hd
  | c :: s, d :: t, r, r', h => by
    rw [esc, esc] at h
    by_cases hc : c = 34 ∨ c = 92
    · rw [if_pos hc] at h
      by_cases hd : d = 34 ∨ d = 92
      · rw [if_pos hd] at h
        simp only [List.cons_append, List.cons.injEq, true_and] at h
        obtain ⟨rfl, h⟩ := h
        obtain ⟨rfl, h2⟩ := esc_ends s t r r' h
        exact ⟨rfl, h2⟩
      · rw [if_neg hd] at h
        simp only [List.cons_append, List.cons.injEq] at h
        exact absurd (.inr h.1.symm) hd
    · rw [if_neg hc] at h
      by_cases hd : d = 34 ∨ d = 92
      · rw [if_pos hd] at h
        simp only [List.cons_append, List.cons.injEq] at h
        exact absurd (.inr h.1) hc
      · rw [if_neg hd] at h
        simp only [List.cons_append, List.cons.injEq] at h
        obtain ⟨rfl, h⟩ := h
        obtain ⟨rfl, h2⟩ := esc_ends s t r r' h
        exact ⟨rfl, h2⟩

theorem toyFmt_quotes : toyFmt.Quotes :=
  ⟨fun s => ⟨_, rfl⟩, fun s t r r' h => esc_ends s t r r' (by simpa [toyFmt] using h)⟩

/-- `{ a = "x", b = [1, true], c = {} }` -/
def toyAttrs : List (Bytes × Any) := [([97], .str [120]), ([98], .array [.int 1, .bool true]), ([99], .kvs [])]

example : PlainPairs toyAttrs := by simp [toyAttrs, PlainPairs, PlainAll, Plain]

example : attr toyFmt toyAttrs = some [123, 32, 97, 32, 61, 32, 34, 120, 34, 44, 32, 98, 32, 61, 32, 91, 49, 44, 32, 116, 114, 117, 101, 93, 44, 32, 99, 32,
    61, 32, 123, 125, 32, 125] := by decide +kernel

example : attr toyFmt [([97], .array [.nil])] = none := rfl

end Verif.Rd
