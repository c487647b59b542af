import Verif.Spec.RenderText
import Verif.Lemmas.Decimal
import Verif.Props.Render
/-! # C70: the printed page -/
namespace Verif.Rd

theorem each_nil {α : Type} {P : α → Bytes → Prop} {ts : List Bytes} : Each P [] ts ↔ ts = [] := by
  constructor
  · rintro ⟨h, -⟩; exact List.length_eq_zero_iff.1 h
  · rintro rfl; exact ⟨rfl, fun i x t h => by simp at h⟩

theorem each_cons {α : Type} {P : α → Bytes → Prop} {x : α} {xs : List α} {ts : List Bytes} :
    Each P (x :: xs) ts ↔ ∃ t ts', ts = t :: ts' ∧ P x t ∧ Each P xs ts' := by
  constructor
  · rintro ⟨h1, h2⟩
    cases ts with
    | nil => simp at h1
    | cons t ts => exact ⟨t, ts, rfl, h2 0 x t rfl rfl, by simpa using h1, fun i y u hy hu => h2 (i + 1) y u hy hu⟩
  · rintro ⟨t, ts, rfl, h1, h2, h3⟩
    refine ⟨by simp [h2], fun i y u hy hu => ?_⟩
    cases i with
    | zero => cases hy; cases hu; exact h1
    | succ i => exact h3 i y u hy hu

theorem Each.congr {α : Type} {P Q : α → Bytes → Prop} {xs : List α} {ts : List Bytes} (h : ∀ x ∈ xs, ∀ t, P x t ↔ Q x t) : Each P xs ts ↔ Each Q xs ts := by
  unfold Each
  constructor <;> rintro ⟨h1, h2⟩ <;> refine ⟨h1, fun i x t hx ht => ?_⟩
  · exact (h x (List.mem_of_getElem? hx) t).1 (h2 i x t hx ht)
  · exact (h x (List.mem_of_getElem? hx) t).2 (h2 i x t hx ht)

/-- Joined, with a separator before the first unless `first`. -/
def joined (sep : Bytes) : Bool → List Bytes → Bytes
  | _, [] => []
  | first, t :: ts => (if first then [] else sep) ++ t ++ joined sep false ts

theorem joined_between (sep : Bytes) : ∀ ts, joined sep true ts = between sep ts
  | [] => rfl
  | [t] => by simp [joined, between]
  | t :: u :: ts => by
    have ih := joined_between sep (u :: ts)
    simp only [between, List.intersperse_cons₂, List.flatten_cons] at ih ⊢
    rw [← ih]
    simp [joined]

theorem parts_iff {α : Type} {f : α → Option Bytes} : ∀ (xs : List α) (first : Bool) (s : Bytes),
    parts first (xs.map f) = some s ↔ ∃ ts, Each (fun x t => f x = some t) xs ts ∧ s = joined [10] first ts
  | [], first, s => by
    simp only [List.map_nil, parts, Option.some.injEq, each_nil]
    constructor
    · rintro rfl; exact ⟨[], rfl, rfl⟩
    · rintro ⟨ts, rfl, rfl⟩; rfl
  | x :: xs, first, s => by
    simp only [List.map_cons, parts, Option.bind_eq_some_iff, Option.map_eq_some_iff, parts_iff xs false, each_cons]
    constructor
    · rintro ⟨t, ht, u, ⟨ts, hts, rfl⟩, rfl⟩; exact ⟨t :: ts, ⟨t, ts, rfl, ht, hts⟩, rfl⟩
    · rintro ⟨_, ⟨t, ts, rfl, ht, hts⟩, rfl⟩; exact ⟨t, ht, _, ⟨ts, hts, rfl⟩, rfl⟩

theorem elems_iff {F : Fmt} : ∀ (l : List Any) (first : Bool) (s : Bytes),
    elems F first l = some s ↔ ∃ ts, Each (fun a t => value F a = some t) l ts ∧ s = joined [44, 32] first ts
  | [], first, s => by
    simp only [elems, Option.some.injEq, each_nil]
    constructor
    · rintro rfl; exact ⟨[], rfl, rfl⟩
    · rintro ⟨ts, rfl, rfl⟩; rfl
  | a :: l, first, s => by
    simp only [elems, Option.bind_eq_some_iff, Option.map_eq_some_iff, elems_iff l false, each_cons]
    constructor
    · rintro ⟨t, ht, u, ⟨ts, hts, rfl⟩, rfl⟩; exact ⟨t :: ts, ⟨t, ts, rfl, ht, hts⟩, rfl⟩
    · rintro ⟨_, ⟨t, ts, rfl, ht, hts⟩, rfl⟩; exact ⟨t, ht, _, ⟨ts, hts, rfl⟩, rfl⟩

/-- A pair. -/
def pairText (x : (Bytes × Any) × Bytes) : Bytes := x.1.1 ++ [32, 61, 32] ++ x.2

theorem pairs_rest {F : Fmt} : ∀ (l : List (Bytes × Any)) (s : Bytes),
    pairs F false l = some s ↔ ∃ ts, Each (fun x t => value F x.2 = some t) l ts ∧ s = joined [44, 32] false ((l.zip ts).map pairText)
  | [], s => by
    simp only [pairs, Option.some.injEq, each_nil]
    constructor
    · rintro rfl; exact ⟨[], rfl, rfl⟩
    · rintro ⟨ts, rfl, rfl⟩; rfl
  | (k, a) :: l, s => by
    simp only [pairs, Option.bind_eq_some_iff, Option.map_eq_some_iff, pairs_rest l, each_cons]
    constructor
    · rintro ⟨t, ht, u, ⟨ts, hts, rfl⟩, rfl⟩; exact ⟨t :: ts, ⟨t, ts, rfl, ht, hts⟩, by simp [joined, pairText]⟩
    · rintro ⟨_, ⟨t, ts, rfl, ht, hts⟩, rfl⟩; exact ⟨t, ht, _, ⟨ts, hts, rfl⟩, by simp [joined, pairText]⟩

theorem pairs_iff {F : Fmt} (l : List (Bytes × Any)) (hl : l ≠ []) (s : Bytes) :
    pairs F true l = some s ↔ ∃ ts, Each (fun x t => value F x.2 = some t) l ts ∧ s = [32] ++ joined [44, 32] true ((l.zip ts).map pairText) := by
  match l, hl with
  | (k, a) :: l, _ =>
    simp only [pairs, Option.bind_eq_some_iff, Option.map_eq_some_iff, pairs_rest l, each_cons]
    constructor
    · rintro ⟨t, ht, u, ⟨ts, hts, rfl⟩, rfl⟩; exact ⟨t :: ts, ⟨t, ts, rfl, ht, hts⟩, by simp [joined, pairText]⟩
    · rintro ⟨_, ⟨t, ts, rfl, ht, hts⟩, rfl⟩; exact ⟨t, ht, _, ⟨ts, hts, rfl⟩, by simp [joined, pairText]⟩

theorem hexByte_iff (c : UInt8) (s : Bytes) : HexByte c s ↔ s = [hexDigit (c.toNat / 16), hexDigit (c.toNat % 16)] := by
  have h : ∀ n < 16, (ascii "0123456789abcdef")[n]? = some (hexDigit n) := by decide +kernel
  have h1 := h (c.toNat / 16) (by have := c.toNat_lt; omega)
  have h2 := h (c.toNat % 16) (by omega)
  unfold HexByte
  rw [h1, h2]
  constructor
  · rintro ⟨a, b, e1, e2, rfl⟩; cases e1; cases e2; rfl
  · rintro rfl; exact ⟨_, _, rfl, rfl, rfl⟩

theorem hex_iff : ∀ (b s : Bytes), hex b = s ↔ ∃ ts, Each HexByte b ts ∧ s = ts.flatten
  | [], s => by
    simp only [hex, List.flatMap_nil, each_nil]
    constructor
    · rintro rfl; exact ⟨[], rfl, rfl⟩
    · rintro ⟨ts, rfl, rfl⟩; rfl
  | c :: b, s => by
    have ih := hex_iff b
    simp only [each_cons, hexByte_iff]
    constructor
    · rintro rfl
      obtain ⟨ts, h1, h2⟩ := (ih (hex b)).1 rfl
      refine ⟨_ :: ts, ⟨_, ts, rfl, rfl, h1⟩, ?_⟩
      rw [List.flatten_cons, ← h2]; simp [hex]
    · rintro ⟨_, ⟨t, ts, rfl, rfl, h1⟩, rfl⟩
      have := (ih ts.flatten).2 ⟨ts, h1, rfl⟩
      rw [List.flatten_cons, ← this]; simp [hex]

mutual
/-- **C70.** The text of a value is as the grammar says. -/
theorem value_text (F : Fmt) : ∀ (v : Any) (s : Bytes), value F v = some s ↔ ValueText F v s
  | .nil, s => ⟨fun h => (nomatch h), fun h => (nomatch h)⟩
  | .unset, s => by
    simp only [value, Option.some.injEq]
    exact ⟨by rintro rfl; exact .unset, by intro h; cases h; rfl⟩
  | .str x, s => by
    simp only [value, Option.some.injEq]
    exact ⟨by rintro rfl; exact .str x, by intro h; cases h; rfl⟩
  | .bool true, s => by
    simp only [value, Option.some.injEq]
    exact ⟨by rintro rfl; exact .yes, by intro h; cases h; rfl⟩
  | .bool false, s => by
    simp only [value, Option.some.injEq]
    exact ⟨by rintro rfl; exact .no, by intro h; cases h; rfl⟩
  | .int i, s => by
    simp only [value, Option.some.injEq, ← intText_iff]
    exact ⟨.int, by intro h; cases h; assumption⟩
  | .double d, s => by
    simp only [value, Option.some.injEq]
    exact ⟨by rintro rfl; exact .double d, by intro h; cases h; rfl⟩
  | .bytes b, s => by
    simp only [value, Option.some.injEq, hex_iff]
    constructor
    · rintro ⟨ts, ⟨h1, h2⟩, rfl⟩; exact .bytes h1 h2
    · intro h; cases h with | bytes h1 h2 => exact ⟨_, ⟨h1, h2⟩, rfl⟩
  | .array l, s => by
    simp only [value, Option.map_eq_some_iff, elems_iff, each_text F l, joined_between]
    constructor
    · rintro ⟨_, ⟨ts, ⟨h1, h2⟩, rfl⟩, rfl⟩
      have := ValueText.array (F := F) h1 h2
      simpa [ascii] using this
    · intro h
      cases h with
      | array h1 h2 => exact ⟨_, ⟨_, ⟨h1, h2⟩, rfl⟩, by simp [ascii]⟩
  | .kvs [], s => by
    simp only [value, pairs, Option.map_some, Option.some.injEq]
    constructor
    · rintro rfl; exact .none
    · intro h
      cases h with
      | none => rfl
      | pairs h => exact absurd rfl h
  | .kvs ((k, a) :: l), s => by
    simp only [value, Option.map_eq_some_iff, pairs_iff ((k, a) :: l) (by simp), pairs_text F ((k, a) :: l), joined_between]
    constructor
    · rintro ⟨_, ⟨ts, ⟨h1, h2⟩, rfl⟩, rfl⟩
      have := ValueText.pairs (F := F) (l := (k, a) :: l) (by simp) h1 (fun i k a t h h' => h2 i (k, a) t h h')
      have e : (fun x : (Bytes × Any) × Bytes => x.1.1 ++ ascii " = " ++ x.2) = pairText := rfl
      rw [e] at this
      simpa [ascii] using this
    · intro h
      cases h with
      | pairs _ h1 h2 =>
        have e : (fun x : (Bytes × Any) × Bytes => x.1.1 ++ ascii " = " ++ x.2) = pairText := rfl
        rw [e]
        exact ⟨_, ⟨_, ⟨h1, fun i x t h h' => h2 i x.1 x.2 t h h'⟩, rfl⟩, by simp [ascii]⟩
theorem each_text (F : Fmt) : ∀ (l : List Any) (ts : List Bytes), Each (fun a t => value F a = some t) l ts ↔ Each (ValueText F) l ts
  | [], ts => by simp only [each_nil]
  | a :: l, ts => by simp only [each_cons, value_text F a, each_text F l]
theorem pairs_text (F : Fmt) : ∀ (l : List (Bytes × Any)) (ts : List Bytes),
    Each (fun x t => value F x.2 = some t) l ts ↔ Each (fun x t => ValueText F x.2 t) l ts
  | [], ts => by simp only [each_nil]
  | (k, a) :: l, ts => by simp only [each_cons, value_text F a, pairs_text F l]
end

theorem attr_text (F : Fmt) (l : List (Bytes × Any)) (s : Bytes) : attr F l = some s ↔ AttrText F l s := value_text F (.kvs l) s

theorem unitText_iff (m : Metric) (u : Bytes) : UnitText m u ↔ u = unitOf m := by
  have h := C70_unit m
  constructor
  · rintro ⟨h1, h2⟩
    by_cases hu : m.unit = []
    · by_cases hd : ∃ a b, m.description = a ++ [110, 97, 110, 111, 115, 101, 99, 111, 110, 100, 115] ++ b
      · rw [(h2 hu).1 hd, (h.2 hu).1 hd]
      · rw [(h2 hu).2 hd, (h.2 hu).2 hd]
    · rw [h1 hu, h.1 hu]
  · rintro rfl; exact h

theorem lines_iff {O : Out} {u : Bytes} : ∀ (pts : List Point) (ls : List (List Bytes)),
    lines O u pts = some ls ↔ ∃ ats, Each (fun p t => AttrText O.toFmt p.attrs t) pts ats ∧ ls = (pts.zip ats).map fun x => [dateTime x.1.time, O.unit x.1.num u, x.2]
  | [], ls => by
    simp only [lines, Option.some.injEq, each_nil]
    constructor
    · rintro rfl; exact ⟨[], rfl, rfl⟩
    · rintro ⟨_, rfl, rfl⟩; rfl
  | p :: pts, ls => by
    simp only [lines, line, Option.bind_eq_some_iff, Option.map_eq_some_iff, lines_iff pts, attr_text, each_cons]
    constructor
    · rintro ⟨l, ⟨a, ha, rfl⟩, r, ⟨ats, h1, rfl⟩, rfl⟩; exact ⟨a :: ats, ⟨a, ats, rfl, ha, h1⟩, rfl⟩
    · rintro ⟨_, ⟨a, ats, rfl, ha, h1⟩, rfl⟩; exact ⟨_, ⟨a, ha, rfl⟩, _, ⟨ats, h1, rfl⟩, rfl⟩

theorem numeric_iff {O : Out} {u s : Bytes} {pts : List Point} : numeric O pts u = some s ↔ TableText O u pts s := by
  unfold numeric TableText
  simp only [Option.map_eq_some_iff, lines_iff]
  have e : ∀ ats : List Bytes, ((heading :: (pts.zip ats).map fun x => [dateTime x.1.time, O.unit x.1.num u, x.2]).flatMap tableLine) =
      ascii "TIMESTAMP \tVALUE \tATTRIBUTES \t\n" ++
        (pts.zip ats).flatMap fun x => dateTime x.1.time ++ ascii " \t" ++ O.unit x.1.num u ++ ascii " \t" ++ x.2 ++ ascii " \t\n" := by
    intro ats
    rw [List.flatMap_cons, List.flatMap_map]
    refine congrArg (tableLine heading ++ ·) (congrArg (fun f => List.flatMap f (pts.zip ats)) (funext fun x => ?_))
    simp [tableLine, ascii]
  simp only [← e]
  constructor
  · rintro ⟨_, ⟨ats, h, rfl⟩, rfl⟩; exact ⟨ats, h, rfl⟩
  · rintro ⟨ats, h, rfl⟩; exact ⟨_, ⟨ats, h, rfl⟩, rfl⟩

theorem metricHead_eq {O : Out} {o : Opts} {m : Metric} : metricHead O o m =
    m.name ++ ascii "\n" ++ (if o.metrics then O.table (ascii "description \t" ++ m.description ++ ascii "\t\nunit \t" ++ unitOf m ++ ascii "\t\n") else []) := by
  unfold metricHead headLine
  split
  · simp [ascii]
  · rfl

theorem metric_text (O : Out) (o : Opts) (m : Metric) (s : Bytes) : metric O o m = some s ↔ MetricText O o m s := by
  unfold metric MetricText
  simp only [unitText_iff]
  cases m.data with
  | gauge pts =>
    simp only [Option.map_eq_some_iff, numeric_iff, metricHead_eq]
    exact ⟨fun ⟨b, h, e⟩ => ⟨_, b, rfl, h, e.symm⟩, fun ⟨_, b, e, h, e'⟩ => ⟨b, e ▸ h, by subst e; exact e'.symm⟩⟩
  | sum pts =>
    simp only [Option.map_eq_some_iff, numeric_iff, metricHead_eq]
    exact ⟨fun ⟨b, h, e⟩ => ⟨_, b, rfl, h, e.symm⟩, fun ⟨_, b, e, h, e'⟩ => ⟨b, e ▸ h, by subst e; exact e'.symm⟩⟩
  | other raw =>
    simp only [Option.some.injEq, metricHead_eq]
    constructor
    · rintro rfl; exact ⟨_, [], rfl, rfl, by simp⟩
    · rintro ⟨_, b, rfl, rfl, rfl⟩; simp

theorem scopeRows_eq (sc : Scope) (a : Bytes) : (scopeRows sc a).flatMap labelLine = ascii "scope.name \t" ++ sc.name ++ ascii "\nscope.schema \t" ++ sc.schema ++
    ascii "\nscope.version \t" ++ sc.version ++ ascii "\nscope.attributes \t" ++ a ++ ascii "\n" := by simp [scopeRows, labelLine, ascii]

theorem resourceRows_eq (rm : Resource) (a : Bytes) : (resourceRows rm a).flatMap labelLine = ascii "resource.schema \t" ++ rm.schema ++
    ascii "\nresource.attributes \t" ++ a ++ ascii "\n" := by simp [resourceRows, labelLine, ascii]

theorem scope_text (O : Out) (o : Opts) (sc : Scope) (s : Bytes) : scopeText O o sc = some s ↔ ScopeText O o sc s := by
  unfold scopeText ScopeText
  simp only [Option.bind_eq_some_iff, Option.map_eq_some_iff, parts_iff, joined_between]
  have e1 : ∀ ts, Each (fun x t => metric O o x = some t) sc.metrics ts ↔ Each (MetricText O o) sc.metrics ts :=
    fun ts => Each.congr fun m _ t => metric_text O o m t
  simp only [e1]
  cases o.scope with
  | false =>
    constructor
    · rintro ⟨d, h, t, ⟨ts, h1, rfl⟩, rfl⟩
      cases h
      exact ⟨[], ts, h1, .inl ⟨rfl, rfl⟩, rfl⟩
    · rintro ⟨d, ts, h1, ⟨-, rfl⟩ | ⟨h, -⟩, rfl⟩
      · exact ⟨[], rfl, _, ⟨ts, h1, rfl⟩, rfl⟩
      · cases h
  | true =>
    simp only [if_true, Option.map_eq_some_iff, attr_text, scopeRows_eq]
    constructor
    · rintro ⟨d, ⟨a, h, rfl⟩, t, ⟨ts, h1, rfl⟩, rfl⟩
      exact ⟨_, ts, h1, .inr ⟨trivial, a, h, rfl⟩, rfl⟩
    · rintro ⟨d, ts, h1, ⟨h, -⟩ | ⟨-, a, h, rfl⟩, rfl⟩
      · cases h
      · exact ⟨_, ⟨a, h, rfl⟩, _, ⟨ts, h1, rfl⟩, rfl⟩

theorem resource_text (O : Out) (o : Opts) (rm : Resource) (s : Bytes) : resourceText O o rm = some s ↔ ResourceText O o rm s := by
  unfold resourceText ResourceText
  simp only [Option.bind_eq_some_iff, Option.map_eq_some_iff, parts_iff, joined_between]
  have e1 : ∀ ts, Each (fun x t => scopeText O o x = some t) rm.scopes ts ↔ Each (ScopeText O o) rm.scopes ts :=
    fun ts => Each.congr fun m _ t => scope_text O o m t
  simp only [e1]
  cases o.resource with
  | false =>
    constructor
    · rintro ⟨d, h, t, ⟨ts, h1, rfl⟩, rfl⟩
      cases h
      exact ⟨[], ts, h1, .inl ⟨rfl, rfl⟩, rfl⟩
    · rintro ⟨d, ts, h1, ⟨-, rfl⟩ | ⟨h, -⟩, rfl⟩
      · exact ⟨[], rfl, _, ⟨ts, h1, rfl⟩, rfl⟩
      · cases h
  | true =>
    simp only [if_true, Option.map_eq_some_iff, attr_text, resourceRows_eq]
    constructor
    · rintro ⟨d, ⟨a, h, rfl⟩, t, ⟨ts, h1, rfl⟩, rfl⟩
      exact ⟨_, ts, h1, .inr ⟨trivial, a, h, rfl⟩, rfl⟩
    · rintro ⟨d, ts, h1, ⟨h, -⟩ | ⟨-, a, h, rfl⟩, rfl⟩
      · cases h
      · exact ⟨_, ⟨a, h, rfl⟩, _, ⟨ts, h1, rfl⟩, rfl⟩

/-- **C70.** The page that is printed for metrics is exactly the one the grammar gives: every resource, scope, metric and point, in
order, each with its parts. -/
theorem C70_page (O : Out) (o : Opts) (md : List Resource) (s : Bytes) : metricsData O o md = some s ↔ PageText O o md s := by
  unfold metricsData PageText
  simp only [parts_iff, joined_between]
  have e1 : ∀ ts, Each (fun x t => resourceText O o x = some t) md ts ↔ Each (ResourceText O o) md ts :=
    fun ts => Each.congr fun m _ t => resource_text O o m t
  simp only [e1]
  rfl

/-- Not vacuous. -/
def toyOut : Out := { toyFmt with unit := fun n u => dec n ++ u, table := fun t => t, right := fun _ => [] }

example : ∃ md, PageText toyOut {} md (ascii "=== u\n--> s\nm\nTIMESTAMP \tVALUE \tATTRIBUTES \t\n1970-01-01 00:00:01 \t7By \t{ k = -3 } \t\n") := by
  refine ⟨[{ schema := ascii "u", scopes := [{ name := ascii "s", metrics := [{ name := ascii "m", unit := ascii "By", data := .sum [⟨1000000000, 7, [(ascii "k", .int (-3))]⟩] }] }] }], ?_⟩
  rw [← C70_page]
  decide +kernel

end Verif.Rd
