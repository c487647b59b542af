import Verif.Props.Tabwriter
import Verif.Props.Unit
/-! # C88: the tables of the page -/
namespace Verif.Tw
open Rd (Each AttrText)

/-- Visible bytes, and spaces. -/
def Visible (t : Bytes) : Prop := ∀ b ∈ t, 32 ≤ b.toNat ∧ b.toNat < 255

theorem Visible.clean {t : Bytes} (h : Visible t) : Clean t := by
  intro b hb
  have := h b hb
  refine ⟨?_, ?_, ?_, ?_, ?_⟩ <;> (rintro rfl; revert this; decide)

theorem Clean.append {a b : Bytes} (ha : Clean a) (hb : Clean b) : Clean (a ++ b) := fun x hx => (List.mem_append.1 hx).elim (ha x) (hb x)

theorem Visible.append {a b : Bytes} (ha : Visible a) (hb : Visible b) : Visible (a ++ b) := fun x hx => (List.mem_append.1 hx).elim (ha x) (hb x)

theorem visible_digits {t : Bytes} (h : ∀ b ∈ t, isDigit b) : Visible t := fun b hb => by
  have := h b hb
  unfold isDigit at this
  omega

theorem visible_dec (n : Nat) : Visible (dec n) := visible_digits (dec_digits n)

theorem visible_digit {d : Nat} (h : d < 10) : Visible [digit d] := visible_digits (by simpa using digit_isDigit h)

theorem visible_pad2 (n : Nat) : Visible (Tm.pad2 n) := (visible_digit (d := n / 10 % 10) (by omega)).append (visible_digit (d := n % 10) (by omega))

theorem visible_pad4 (n : Nat) : Visible (Tm.pad4 n) :=
  ((((visible_digit (d := n / 1000 % 10) (by omega)).append (visible_digit (d := n / 100 % 10) (by omega)))).append (visible_digit (d := n / 10 % 10) (by omega))).append
    (visible_digit (d := n % 10) (by omega))

theorem visible_dateTime (ns : Nat) : Visible (Rd.dateTime ns) := by
  have h1 : Visible [45] := by unfold Visible; decide
  have h2 : Visible [32] := by unfold Visible; decide
  have h3 : Visible [58] := by unfold Visible; decide
  exact ((((((((((visible_pad4 _).append h1).append (visible_pad2 _)).append h1).append (visible_pad2 _)).append h2).append (visible_pad2 _)).append h3).append
    (visible_pad2 _)).append h3).append (visible_pad2 _)

theorem visible_frac : ∀ (p v : Nat) (pr : Bool) (acc : Bytes), Visible acc → Visible (Un.fracLoop p v pr acc).1
  | 0, v, pr, acc, h => by
    rw [Un.fracLoop]
    dsimp only
    split
    · exact Visible.append (a := [46]) (by unfold Visible; decide) h
    · exact h
  | p + 1, v, pr, acc, h => by
    rw [Un.fracLoop]
    refine visible_frac p _ _ _ ?_
    split
    · exact Visible.append (a := [digit (v % 10)]) (visible_digit (by omega)) h
    · exact h

theorem visible_fixed (v p : Nat) (acc : Bytes) (h : Visible acc) : Visible (Un.fixed v p acc) := (visible_dec _).append (visible_frac p v false acc h)

theorem visible_durNat (u : Nat) : Visible (Un.durNat u) := by
  have hs : Visible [115] := by unfold Visible; decide
  have hm : ∀ t, Visible t → Visible (109 :: t) := fun t h => Visible.append (a := [109]) (by unfold Visible; decide) h
  have hh : ∀ t, Visible t → Visible (104 :: t) := fun t h => Visible.append (a := [104]) (by unfold Visible; decide) h
  have hf := visible_frac 9 u false [115] hs
  unfold Un.durNat
  split
  · split
    · unfold Visible; decide
    · split
      · exact visible_fixed _ _ _ (by unfold Visible; decide)
      · split
        · exact visible_fixed _ _ _ (by unfold Visible; decide)
        · exact visible_fixed _ _ _ (by unfold Visible; decide)
  · dsimp only
    split
    · split
      · exact (visible_dec _).append (hh _ ((visible_dec _).append (hm _ ((visible_dec _).append hf))))
      · exact (visible_dec _).append (hm _ ((visible_dec _).append hf))
    · exact (visible_dec _).append hf

theorem visible_durText (d : Int) : Visible (Un.durText d) := by
  unfold Un.durText
  split
  · exact Visible.append (a := [45]) (by unfold Visible; decide) (visible_durNat _)
  · exact visible_durNat _

/-- What is asked of the numbers that Go's `fmt` and the library `humanize` print: clean text. -/
structure CleanNumbers (double : Nat → Bytes) (E : Un.Env) : Prop where
  double : ∀ d, Clean (double d)
  sprint : ∀ v, Clean (E.sprint v)
  iBytes : ∀ v, Clean (E.iBytes v)

theorem clean_cell {double : Nat → Bytes} {E : Un.Env} (h : CleanNumbers double E) (n : Un.Number) (u : Bytes) : Clean (Un.cell E n u) := by
  unfold Un.cell Un.formatUnit
  split
  · exact (visible_durText _).clean
  · split
    · exact h.iBytes _
    · exact h.sprint _

theorem visible_hex (b : Bytes) : Visible (Rd.hex b) := by
  intro c hc
  obtain ⟨d, -, h⟩ := List.mem_flatMap.1 hc
  have hd := d.toNat_lt
  simp only [List.mem_cons, List.not_mem_nil, or_false] at h
  rcases h with rfl | rfl
  · have := Qt.hexDigit_line (d := d.toNat / 16) (by omega); omega
  · have := Qt.hexDigit_line (d := d.toNat % 16) (by omega); omega

theorem visible_decInt (i : Int) : Visible (decInt i) := by
  intro c hc
  rcases Rd.decInt_chars i c hc with rfl | h
  · decide
  · unfold isDigit at h; omega

theorem visible_bool (b : Bool) : Visible (Rd.boolText b) := by cases b <;> (unfold Visible; decide)

theorem visible_quote (above : Nat → Bool) (s : Bytes) : Visible (Qt.quote above s) := fun b hb => by
  have := Qt.C87_line above s b hb
  omega

theorem clean_lit {t : Bytes} (h : ∀ b ∈ t, 32 ≤ b.toNat ∧ b.toNat < 255) : Clean t := Visible.clean h

theorem clean_nil : Clean [] := fun b hb => by simp at hb

mutual
theorem clean_value (above : Nat → Bool) {double : Nat → Bytes} (hd : ∀ d, Clean (double d)) : ∀ (v : Rd.Any) (t : Bytes), CleanKeys v →
    Rd.value (Qt.fmt above double) v = some t → Clean t
  | .nil, t, _, h => by simp [Rd.value] at h
  | .unset, t, _, h => by simp [Rd.value] at h; subst h; exact clean_nil
  | .str s, t, _, h => by simp [Rd.value] at h; subst h; exact (visible_quote above s).clean
  | .bool b, t, _, h => by simp [Rd.value] at h; subst h; exact (visible_bool b).clean
  | .int i, t, _, h => by simp [Rd.value] at h; subst h; exact (visible_decInt i).clean
  | .double d, t, _, h => by simp [Rd.value] at h; subst h; exact hd d
  | .bytes b, t, _, h => by simp [Rd.value] at h; subst h; exact (visible_hex b).clean
  | .array l, t, hk, h => by
    simp only [Rd.value, Option.map_eq_some_iff] at h
    obtain ⟨u, hu, rfl⟩ := h
    exact Clean.append (a := [91]) (clean_lit (by decide)) ((clean_elems above hd l true u hk hu).append (clean_lit (by decide)))
  | .kvs l, t, hk, h => by
    simp only [Rd.value, Option.map_eq_some_iff] at h
    obtain ⟨u, hu, rfl⟩ := h
    refine Clean.append (a := [123]) (clean_lit (by decide)) ((clean_pairs above hd l true u hk hu).append ?_)
    split <;> exact clean_lit (by decide)
theorem clean_elems (above : Nat → Bool) {double : Nat → Bytes} (hd : ∀ d, Clean (double d)) : ∀ (l : List Rd.Any) (f : Bool) (t : Bytes), CleanKeysAll l →
    Rd.elems (Qt.fmt above double) f l = some t → Clean t
  | [], f, t, _, h => by simp [Rd.elems] at h; subst h; exact clean_nil
  | a :: l, f, t, hk, h => by
    simp only [Rd.elems, Option.bind_eq_some_iff, Option.map_eq_some_iff] at h
    obtain ⟨u, hu, w, hw, rfl⟩ := h
    refine ((?_ : Clean _).append (clean_value above hd a u hk.1 hu)).append (clean_elems above hd l false w hk.2 hw)
    split <;> exact clean_lit (by decide)
theorem clean_pairs (above : Nat → Bool) {double : Nat → Bytes} (hd : ∀ d, Clean (double d)) : ∀ (l : List (Bytes × Rd.Any)) (f : Bool) (t : Bytes), CleanKeysPairs l →
    Rd.pairs (Qt.fmt above double) f l = some t → Clean t
  | [], f, t, _, h => by simp [Rd.pairs] at h; subst h; exact clean_nil
  | (k, a) :: l, f, t, hk, h => by
    simp only [Rd.pairs, Option.bind_eq_some_iff, Option.map_eq_some_iff] at h
    obtain ⟨u, hu, w, hw, rfl⟩ := h
    refine (((Clean.append (?_ : Clean _) hk.1).append (clean_lit (by decide))).append (clean_value above hd a u hk.2.1 hu)).append (clean_pairs above hd l false w hk.2.2 hw)
    split <;> exact clean_lit (by decide)
end

/-- **C88**: the text of attributes whose keys are clean is clean, whatever their values. -/
theorem C88_attributes (above : Nat → Bool) {double : Nat → Bytes} (hd : ∀ d, Clean (double d)) {l : List (Bytes × Rd.Any)} (hk : CleanKeysPairs l) {t : Bytes}
    (h : AttrText (Qt.fmt above double) l t) : Clean t :=
  clean_value above hd (.kvs l) t hk ((Rd.attr_text _ l t).2 h)

/-- The rows of the table of points. -/
def pointRows (O : Rd.Out) (u : Bytes) (pts : List Rd.Point) (ats : List Bytes) : List Row :=
  ⟨[ascii "TIMESTAMP ", ascii "VALUE ", ascii "ATTRIBUTES "], []⟩ ::
    (pts.zip ats).map fun x => ⟨[Rd.dateTime x.1.time ++ ascii " ", O.unit x.1.num u ++ ascii " ", x.2 ++ ascii " "], []⟩

/-- **C88**: the points of a gauge or a sum whose attributes have clean keys are printed as a table whose columns line up: a heading, and one line for each point,
in order, with its time, its value and its attributes, whatever their values are. -/
theorem C88_points (above : Nat → Bool) {double : Nat → Bytes} {E : Un.Env} (hE : CleanNumbers double E) (number : Nat → Un.Number) (u : Bytes) (pts : List Rd.Point) {t : Bytes}
    (h : Rd.numeric (out above double E number) pts u = some t) (hk : ∀ p ∈ pts, CleanKeysPairs p.attrs) :
    ∃ ats, Each (fun p a => AttrText (Qt.fmt above double) p.attrs a) pts ats ∧ Laid false (pointRows (out above double E number) u pts ats) t := by
  rw [Rd.numeric_iff] at h
  obtain ⟨ats, ha, rfl⟩ := h
  refine ⟨ats, ha, ?_⟩
  have e : ascii "TIMESTAMP \tVALUE \tATTRIBUTES \t\n" ++ ((pts.zip ats).flatMap fun x => Rd.dateTime x.1.time ++ ascii " \t" ++ (out above double E number).unit x.1.num u ++ ascii " \t" ++ x.2 ++ ascii " \t\n") =
      (pointRows (out above double E number) u pts ats).flatMap Row.text := by
    rw [pointRows, List.flatMap_cons, List.flatMap_map]
    refine congrArg (Row.text ⟨[ascii "TIMESTAMP ", ascii "VALUE ", ascii "ATTRIBUTES "], []⟩ ++ ·) (congrArg (fun f => List.flatMap f (pts.zip ats)) (funext fun x => ?_))
    simp [Row.text, ascii]
  show Laid false _ (tab false _)
  rw [e]
  refine C88_table false 3 _ ?_ ?_
  · intro r hr
    rcases List.mem_cons.1 hr with rfl | hr
    · rfl
    · obtain ⟨x, -, rfl⟩ := List.mem_map.1 hr; rfl
  · intro r hr
    have hsp : Clean (ascii " ") := clean_lit (by decide)
    rcases List.mem_cons.1 hr with rfl | hr
    · refine ⟨fun c hc => ?_, clean_nil⟩
      simp only [List.mem_cons, List.not_mem_nil, or_false] at hc
      rcases hc with rfl | rfl | rfl <;> exact clean_lit (by decide)
    · obtain ⟨x, hx, rfl⟩ := List.mem_map.1 hr
      refine ⟨fun c hc => ?_, clean_nil⟩
      simp only [List.mem_cons, List.not_mem_nil, or_false] at hc
      rcases hc with rfl | rfl | rfl
      · exact (visible_dateTime _).clean.append hsp
      · exact (clean_cell hE _ _).append hsp
      · refine Clean.append ?_ hsp
        obtain ⟨i, hi⟩ := List.mem_iff_getElem?.1 hx
        rw [List.getElem?_zip_eq_some] at hi
        exact C88_attributes above hE.double (hk _ (List.mem_of_getElem? hi.1)) (ha.2 i _ _ hi.1 hi.2)

/-- **C88**: the table in front of a scope, right-aligned: its first column lines up. -/
theorem C88_scope (above : Nat → Bool) {double : Nat → Bytes} {E : Un.Env} (hE : CleanNumbers double E) (number : Nat → Un.Number) {o : Rd.Opts} (ho : o.scope = true) (sc : Rd.Scope) (hk : CleanKeysPairs sc.attrs)
    (h1 : Clean sc.name) (h2 : Clean sc.schema) (h3 : Clean sc.version) {t : Bytes} (h : Rd.ScopeText (out above double E number) o sc t) :
    ∃ a head rest, AttrText (Qt.fmt above double) sc.attrs a ∧ t = ascii "--> " ++ sc.name ++ ascii "\n" ++ head ++ rest ∧
      Laid true [⟨[ascii "scope.name "], sc.name⟩, ⟨[ascii "scope.schema "], sc.schema⟩, ⟨[ascii "scope.version "], sc.version⟩, ⟨[ascii "scope.attributes "], a⟩] head := by
  obtain ⟨head, ts, -, hh, rfl⟩ := h
  rcases hh with ⟨h, -⟩ | ⟨-, a, ha, rfl⟩
  · rw [ho] at h; cases h
  refine ⟨a, _, _, ha, rfl, ?_⟩
  have e : ascii "scope.name \t" ++ sc.name ++ ascii "\nscope.schema \t" ++ sc.schema ++ ascii "\nscope.version \t" ++ sc.version ++ ascii "\nscope.attributes \t" ++ a ++ ascii "\n" =
      ([⟨[ascii "scope.name "], sc.name⟩, ⟨[ascii "scope.schema "], sc.schema⟩, ⟨[ascii "scope.version "], sc.version⟩, ⟨[ascii "scope.attributes "], a⟩] : List Row).flatMap Row.text := by
    simp [Row.text, ascii]
  show Laid true _ (tab true _)
  rw [e]
  refine C88_table true 1 _ (by simp) ?_
  intro r hr
  simp only [List.mem_cons, List.not_mem_nil, or_false] at hr
  rcases hr with rfl | rfl | rfl | rfl <;> refine ⟨fun c hc => ?_, by first | assumption | exact C88_attributes above hE.double hk ha⟩ <;>
    (simp only [List.mem_cons, List.not_mem_nil, or_false] at hc; subst hc; exact clean_lit (by decide))

/-- **C88**: the table in front of a resource, right-aligned. -/
theorem C88_resource (above : Nat → Bool) {double : Nat → Bytes} {E : Un.Env} (hE : CleanNumbers double E) (number : Nat → Un.Number) {o : Rd.Opts} (ho : o.resource = true)
    (rm : Rd.Resource) (hk : CleanKeysPairs rm.attrs) (h1 : Clean rm.schema) {t : Bytes} (h : Rd.ResourceText (out above double E number) o rm t) :
    ∃ a head rest, AttrText (Qt.fmt above double) rm.attrs a ∧ t = ascii "=== " ++ rm.schema ++ ascii "\n" ++ head ++ rest ∧
      Laid true [⟨[ascii "resource.schema "], rm.schema⟩, ⟨[ascii "resource.attributes "], a⟩] head := by
  obtain ⟨head, ts, -, hh, rfl⟩ := h
  rcases hh with ⟨h, -⟩ | ⟨-, a, ha, rfl⟩
  · rw [ho] at h; cases h
  refine ⟨a, _, _, ha, rfl, ?_⟩
  have e : ascii "resource.schema \t" ++ rm.schema ++ ascii "\nresource.attributes \t" ++ a ++ ascii "\n" =
      ([⟨[ascii "resource.schema "], rm.schema⟩, ⟨[ascii "resource.attributes "], a⟩] : List Row).flatMap Row.text := by
    simp [Row.text, ascii]
  show Laid true _ (tab true _)
  rw [e]
  refine C88_table true 1 _ (by simp) ?_
  intro r hr
  simp only [List.mem_cons, List.not_mem_nil, or_false] at hr
  rcases hr with rfl | rfl <;> refine ⟨fun c hc => ?_, by first | assumption | exact C88_attributes above hE.double hk ha⟩ <;>
    (simp only [List.mem_cons, List.not_mem_nil, or_false] at hc; subst hc; exact clean_lit (by decide))

/-- **C88**: the table of description and unit in front of the points of a metric. -/
theorem C88_metric (above : Nat → Bool) (double : Nat → Bytes) (E : Un.Env) (number : Nat → Un.Number) {o : Rd.Opts} (ho : o.metrics = true)
    (m : Rd.Metric) (h1 : Clean m.description) (h2 : Clean m.unit) {t : Bytes} (h : Rd.MetricText (out above double E number) o m t) :
    ∃ u head rest, Rd.UnitText m u ∧ t = m.name ++ ascii "\n" ++ head ++ rest ∧
      Laid false [⟨[ascii "description ", m.description], []⟩, ⟨[ascii "unit ", u], []⟩] head := by
  obtain ⟨u, body, hu, -, rfl⟩ := h
  rw [if_pos ho]
  refine ⟨u, _, _, hu, rfl, ?_⟩
  have hcu : Clean u := by
    by_cases hm : m.unit = []
    · by_cases hd : ∃ a b, m.description = a ++ [110, 97, 110, 111, 115, 101, 99, 111, 110, 100, 115] ++ b
      · rw [(hu.2 hm).1 hd]; exact clean_lit (by decide)
      · rw [(hu.2 hm).2 hd]; exact clean_nil
    · rw [hu.1 hm]; exact h2
  have e : ascii "description \t" ++ m.description ++ ascii "\t\nunit \t" ++ u ++ ascii "\t\n" =
      ([⟨[ascii "description ", m.description], []⟩, ⟨[ascii "unit ", u], []⟩] : List Row).flatMap Row.text := by
    simp [Row.text, ascii]
  show Laid false _ (tab false _)
  rw [e]
  refine C88_table false 2 _ (by simp) ?_
  intro r hr
  simp only [List.mem_cons, List.not_mem_nil, or_false] at hr
  rcases hr with rfl | rfl <;> refine ⟨fun c hc => ?_, clean_nil⟩ <;> simp only [List.mem_cons, List.not_mem_nil, or_false] at hc <;> rcases hc with rfl | rfl <;>
    first | assumption | exact clean_lit (by decide)

/-- **C88 is false** of keys with line ends, which are printed as they are: the attributes of one point can make up another point, with any time and value, and the page is, to
the byte, the one with two points. -/
theorem C88_forged (O : Rd.Out) (u : Bytes) (p : Rd.Point) (time num : Nat) :
    Rd.numeric O [{ p with attrs := [(ascii "a = true } \t\n" ++ Rd.dateTime time ++ ascii " \t" ++ O.unit num u ++ ascii " \t{ a", .bool true)] }] u =
      Rd.numeric O [{ p with attrs := [(ascii "a", .bool true)] }, ⟨time, num, [(ascii "a", .bool true)]⟩] u := by
  have h1 : ∀ k : Bytes, Rd.attr O.toFmt [(k, .bool true)] = some (ascii "{ " ++ k ++ ascii " = true }") := fun k => by simp [Rd.attr, Rd.value, Rd.pairs, Rd.boolText, ascii]
  simp only [Rd.numeric, Rd.lines, Rd.line, h1, Option.map_some, Option.bind_some]
  simp [Rd.tableLine, ascii]

/-! ## Examples -/

/-- Left: `a   é1  x` and `bbb 0   y`; the é counts once. -/
example : tab false (ascii "a\t" ++ [0xC3, 0xA9, 49, 9] ++ ascii "x\nbbb\t0\ty\n") = ascii "a   " ++ [0xC3, 0xA9, 49, 32] ++ ascii "x\nbbb 0  y\n" := by decide +kernel
/-- Right. -/
example : tab true (ascii "a \tx\nbbb \ty\n") = ascii "   a x\n bbb y\n" := by decide +kernel
/-- Rows of different lengths: only adjacent cells make a column. -/
example : tab false (ascii "aaa\tb\n1\t2\t3\nx\ty\n") = ascii "aaa b\n1   2 3\nx   y\n" := by decide +kernel
/-- A bare line ends the columns. -/
example : tab false (ascii "aaa\tb\n-\nx\ty\n") = ascii "aaa b\n-\nx y\n" := by decide +kernel
/-- Between two bytes 0xFF tabs are text. -/
example : tab false ([255, 9, 255, 9] ++ ascii "x\naaaa\ty\n") = [255, 9, 255] ++ ascii "    x\naaaa y\n" := by decide +kernel
example : Clean (ascii "a, b") := clean_lit (by decide)
example : ¬ Clean (ascii "a\nb") := fun h => by have := h 10 (by decide); simp at this
example : CleanKeysPairs [(ascii "k", .str (ascii "a\nb"))] := ⟨clean_lit (by decide), trivial, trivial⟩
/-- The hypotheses are met. -/
example : CleanNumbers (fun _ => ascii "1.5") { overflow := fun _ => 0, specialNs := fun _ _ => 0, sprint := fun _ => ascii "7", iBytes := fun _ => ascii "7 B" } :=
  ⟨fun _ => clean_lit (by decide), fun _ => clean_lit (t := ascii "7") (by decide), fun _ => clean_lit (t := ascii "7 B") (by decide)⟩

end Verif.Tw
