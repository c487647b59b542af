import Verif.Lemmas.Flat
import Verif.Lemmas.Agree
/-!
# C62, C63, C64: metrics flattened to rows
-/
namespace Verif.Fl
variable {σ : Type}

/-- **C62.** However often metrics are appended: one row is added per data point, in order, with its own id, and it says all there is
to say of the point; its value is the point's value if it has one. What is missing: a point without value (see `C62_stale`). -/
theorem C62_rows_partial {D : Dict σ} {P : Par σ} (hD : D.Lawful) (ht : P.tr = D.tr) (ds : List (List (ResourceG Metric))) {m m' : M σ}
    (hg : D.Good m.st) (h : appendAll P ds m = some m') :
    ∃ new, m'.rows = m.rows ++ new ∧ List.Forall₂ Row.Describes new (ds.flatMap facts) ∧
      new.map (·.id) = (List.range' m.taken new.length).map P.ids ∧
      List.Forall₂ (fun r f => f.HasValue → r.gauge = f.number P.float) new (ds.flatMap facts) := by
  obtain ⟨xs, hx, hf⟩ := appendAll_spec hD ht ds hg h
  have hall : ∀ (Q : Row → Fact → Prop), (∀ x ∈ xs, Q x.row x.fact) → List.Forall₂ Q (xs.map (·.row)) (ds.flatMap facts) := by
    intro Q hQ
    rw [← hf, List.forall₂_map_left_iff, List.forall₂_map_right_iff]
    exact List.forall₂_same.2 hQ
  refine ⟨xs.map (·.row), hx.rows, hall _ fun x h => (hx.ok x h).desc, ?_, hall _ fun x h => (hx.ok x h).value⟩
  rw [List.map_map, List.length_map]
  apply List.ext_getElem
  · simp
  · intro i h1 h2
    simp only [List.length_map] at h1
    simp only [List.getElem_map, Function.comp_apply, List.getElem_range', Nat.one_mul]
    exact hx.ids i xs[i] (List.getElem?_eq_getElem h1)

/-- Every attribute has a value. -/
def Sound (data : List (ResourceG Metric)) : Prop :=
  ∀ r ∈ data, (∀ kv ∈ (r.resource.map (·.attrs)).getD [], kv.value ≠ none) ∧ ∀ s ∈ r.scopes,
    (∀ kv ∈ (s.scope.map (·.attrs)).getD [], kv.value ≠ none) ∧ ∀ x ∈ s.items, ∀ d, x.data = some d → ∀ p ∈ d.all,
      ∀ kv ∈ pointAttrs p, kv.value ≠ none

theorem addCols_total {P : Par σ} (hP : ∀ st k, P.tr st k ≠ none) (kvs : List KeyValue) (h : ∀ kv ∈ kvs, kv.value ≠ none) (st : σ) (b : Bm) :
    addCols P kvs st b ≠ none := by
  induction kvs generalizing st b with
  | nil => simp [addCols]
  | cons kv kvs ih =>
    have ih := ih (fun k hk => h k (List.mem_cons_of_mem _ hk))
    simp only [addCols]
    cases hv : kv.value with
    | none => exact absurd hv (h kv List.mem_cons_self)
    | some v =>
      cases v with
      | other raw => exact ih st b
      | str s =>
        cases hq : P.tr st (kv.key ++ equal ++ s) with
        | none => exact absurd hq (hP _ _)
        | some q => simp only [hq]; exact ih q.1 _

theorem finish_total {P : Par σ} (hP : ∀ st k, P.tr st k ≠ none) (a : Attr) (kvs : List KeyValue) (h : ∀ kv ∈ kvs, kv.value ≠ none) (m : M σ)
    (mx : Row) : finish P a kvs m mx ≠ none := by
  unfold finish attrOf doCols
  have := addCols_total hP kvs h m.st []
  cases h0 : addCols P kvs m.st [] with
  | none => exact absurd h0 this
  | some q =>
    simp only []
    cases hq : P.tr q.1 (nameKey ++ equal ++ mx.name) with
    | none => exact absurd hq (hP _ _)
    | some q => simp

theorem loop_total {α : Type} {P : Par σ} (hP : ∀ st k, P.tr st k ≠ none) (a : Attr) (fill : Row → α → Row) (attrs : α → List KeyValue) (l : List α)
    (h : ∀ p ∈ l, ∀ kv ∈ attrs p, kv.value ≠ none) (m : M σ) (mx : Row) : loop P a fill attrs l m mx ≠ none := by
  induction l generalizing m mx with
  | nil => simp [loop]
  | cons p l ih =>
    simp only [loop]
    cases hq : finish P a (attrs p) m (fill mx p) with
    | none => exact absurd hq (finish_total hP a _ (h p List.mem_cons_self) _ _)
    | some q => simp only []; exact ih (fun p hp => h p (List.mem_cons_of_mem _ hp)) _ _

theorem metric_total {P : Par σ} (hP : ∀ st k, P.tr st k ≠ none) (a : Attr) (x : Metric)
    (h : ∀ d, x.data = some d → ∀ p ∈ d.all, ∀ kv ∈ pointAttrs p, kv.value ≠ none) (m : M σ) :
    metric P a x m ≠ none := by
  unfold metric
  cases hx : x.data with
  | none => simp
  | some d =>
    have h := h d hx
    cases d <;> simp only [numbers_eq, hists_eq, expHists_eq, summaries_eq] <;> apply loop_total hP <;> intro p hp kv hk
    · exact h (.inl p) (by simp [Points.all, hp]) kv hk
    · exact h (.inl p) (by simp [Points.all, hp]) kv hk
    · exact h (.inr p) (by simp [Points.all, hp]) kv hk
    · exact h (.inr p) (by simp [Points.all, hp]) kv hk
    · exact h (.inr p) (by simp [Points.all, hp]) kv hk

/-- **C62.** Appending does not end the process, as long as the dictionary works and every attribute has a value. -/
theorem C62_total_partial {P : Par σ} (hP : ∀ st k, P.tr st k ≠ none) (data : List (ResourceG Metric)) (h : Sound data) (m : M σ) :
    append P data m ≠ none := by
  unfold append
  generalize ({} : Attr) = a
  induction data generalizing a m with
  | nil => simp [resourceLoop]
  | cons r data ih =>
    simp only [resourceLoop, setResource, doCols]
    have hr := h r List.mem_cons_self
    cases h0 : addCols P ((r.resource.map (·.attrs)).getD []) m.st [] with
    | none => exact absurd h0 (addCols_total hP _ hr.1 _ _)
    | some q =>
      simp only []
      have hs : ∀ (l : List (ScopeG Metric)) (a : Attr) (m : M σ), (∀ s ∈ l, s ∈ r.scopes) → scopeLoop P a l m ≠ none := by
        intro l
        induction l with
        | nil => intro a m _; simp [scopeLoop]
        | cons s l ihl =>
          intro a m hl
          have hs := hr.2 s (hl s List.mem_cons_self)
          simp only [scopeLoop, setScope, doCols]
          cases h1 : addCols P ((s.scope.map (·.attrs)).getD []) m.st [] with
          | none => exact absurd h1 (addCols_total hP _ hs.1 _ _)
          | some q =>
            simp only []
            have hm : ∀ (xs : List Metric) (a : Attr) (m : M σ), (∀ x ∈ xs, x ∈ s.items) → metricLoop P a xs m ≠ none := by
              intro xs
              induction xs with
              | nil => intro a m _; simp [metricLoop]
              | cons x xs ihx =>
                intro a m hx
                simp only [metricLoop]
                cases h2 : metric P a x m with
                | none => exact absurd h2 (metric_total hP a x (hs.2 x (hx x List.mem_cons_self)) m)
                | some m1 => simp only []; exact ihx a m1 fun y hy => hx y (List.mem_cons_of_mem _ hy)
            cases h2 : metricLoop P { a with scope := (s.scope.map (·.attrs)).getD [], sb := q.2 } s.items { m with st := q.1 } with
            | none => exact absurd h2 (hm _ _ _ fun _ h => h)
            | some m1 => simp only []; exact ihl _ _ fun y hy => hl y (List.mem_cons_of_mem _ hy)
      cases h1 : scopeLoop P { a with resource := (r.resource.map (·.attrs)).getD [], rb := q.2 } r.scopes { m with st := q.1 } with
      | none => exact absurd h1 (hs _ _ _ fun _ h => h)
      | some q => simp only []; exact ih (fun y hy => h y (List.mem_cons_of_mem _ hy)) _ _

/-- **C63.** Bits of a row: exactly those of its name and of the string attributes of the data point itself, with the column modulo
2^20. The attributes of the resource and of the scope, which also describe the point, are lost (see `C63_refuted`). -/
theorem C63_positions {D : Dict σ} {P : Par σ} (hD : D.Lawful) (ht : P.tr = D.tr) (hinj : ∀ i j, P.ids i = P.ids j → i = j)
    (hsmall : ∀ i, P.ids i < 2 ^ 44) (ds : List (List (ResourceG Metric))) {st : σ} {m' : M σ} (hg : D.Good st)
    (h : appendAll P ds { st := st } = some m') (i : Nat) (f : Fact) (hf : (ds.flatMap facts)[i]? = some f) (p : Nat) :
    (p ∈ m'.positions ∧ p / 2 ^ 20 = P.ids i) ↔ ∃ l c, f.Label l ∧ D.look m'.st l = some c ∧ p = P.ids i * 2 ^ 20 + c % 2 ^ 20 := by
  obtain ⟨xs, hx, hfs⟩ := appendAll_spec hD ht ds (m := { st := st }) hg h
  have hpos : ∀ r c, r < 2 ^ 44 → Fl.pos r c = r * 2 ^ 20 + c % 2 ^ 20 := by
    intro r c hr
    unfold Fl.pos
    rw [show Bt.shardWidth = 1048576 from rfl]
    omega
  have hid : ∀ j x, xs[j]? = some x → x.row.id = P.ids j := by
    intro j x hj
    have := hx.ids j x hj
    simpa using this
  have hxi : ∃ x, xs[i]? = some x ∧ x.fact = f := by
    rw [← hfs, List.getElem?_map] at hf
    cases hq : xs[i]? with
    | none => simp [hq] at hf
    | some x => exact ⟨x, rfl, by simpa [hq] using hf⟩
  obtain ⟨x, hxi, rfl⟩ := hxi
  have hok := hx.ok x (List.mem_of_getElem? hxi)
  constructor
  · rintro ⟨hp, hd⟩
    rw [hx.pos] at hp
    rcases hp with hp | ⟨y, hy, c, hc, rfl⟩
    · simp at hp
    · obtain ⟨j, hj⟩ := List.mem_iff_getElem?.1 hy
      have hyid := hid j y hj
      have hlt := hsmall j
      rw [hyid, hpos _ _ hlt] at hd ⊢
      have hij : P.ids j = P.ids i := by omega
      have hji := hinj _ _ hij
      subst hji
      rw [hxi] at hj
      cases hj
      obtain ⟨l, hl, hlc⟩ := (hok.cols c).1 hc
      exact ⟨l, c, hl, hlc, rfl⟩
  · rintro ⟨l, c, hl, hlc, rfl⟩
    have hlt := hsmall i
    refine ⟨?_, by omega⟩
    rw [hx.pos]
    refine .inr ⟨x, List.mem_of_getElem? hxi, c, (hok.cols c).2 ⟨l, hl, hlc⟩, ?_⟩
    rw [hid i x hxi, hpos _ _ hlt]

/-- **C64.** If the bitmaps of two rows do not collide: the two rows have the same hash exactly when name and own string attributes agree. Resource
and scope attributes do not count (see `C64_refuted`). -/
theorem C64_hash {D : Dict σ} {P : Par σ} (hD : D.Lawful) (hi : D.Injective) (ht : P.tr = D.tr)
    (ds : List (List (ResourceG Metric))) {st : σ} {m' : M σ} (hg : D.Good st) (h : appendAll P ds { st := st } = some m') (i j : Nat) (f g : Fact)
    (hf : (ds.flatMap facts)[i]? = some f) (hgj : (ds.flatMap facts)[j]? = some g)
    (hh : ∀ a b, f.Columns D m'.st a → g.Columns D m'.st b → P.hash a = P.hash b → a = b) :
    (m'.rows[i]?.map (·.hash) = m'.rows[j]?.map (·.hash)) ↔ ∀ l, f.Label l ↔ g.Label l := by
  obtain ⟨xs, hx, hfs⟩ := appendAll_spec hD ht ds (m := { st := st }) hg h
  have hxi : ∀ k f, (ds.flatMap facts)[k]? = some f → ∃ x : Rec, xs[(k : Nat)]? = some x ∧ x.fact = f := by
    intro k f hf
    rw [← hfs, List.getElem?_map] at hf
    cases hq : xs[k]? with
    | none => simp [hq] at hf
    | some x => exact ⟨x, rfl, by simpa [hq] using hf⟩
  obtain ⟨x, hx1, rfl⟩ := hxi i f hf
  obtain ⟨y, hy1, rfl⟩ := hxi j g hgj
  have hxo := hx.ok x (List.mem_of_getElem? hx1)
  have hyo := hx.ok y (List.mem_of_getElem? hy1)
  have hrows : m'.rows = xs.map (·.row) := by simpa using hx.rows
  simp only [hrows, List.getElem?_map, hx1, hy1, Option.map_some, Option.some.injEq]
  rw [hxo.hash, hyo.hash]
  constructor
  · intro he l
    have he := hh _ _ ⟨hxo.asc, hxo.cols⟩ ⟨hyo.asc, hyo.cols⟩ he
    constructor
    · intro hl
      obtain ⟨c, hc⟩ := hxo.known l hl
      have : c ∈ y.cols := he ▸ (hxo.cols c).2 ⟨l, hl, hc⟩
      obtain ⟨l', hl', hc'⟩ := (hyo.cols c).1 this
      rw [hi.inj hx.good hc hc']
      exact hl'
    · intro hl
      obtain ⟨c, hc⟩ := hyo.known l hl
      have : c ∈ x.cols := he ▸ (hyo.cols c).2 ⟨l, hl, hc⟩
      obtain ⟨l', hl', hc'⟩ := (hxo.cols c).1 this
      rw [hi.inj hx.good hc hc']
      exact hl'
  · intro hl
    congr 1
    refine Bm.ext hxo.asc hyo.asc fun c => ?_
    rw [hxo.cols, hyo.cols]
    constructor
    · rintro ⟨l, h1, h2⟩; exact ⟨l, (hl l).1 h1, h2⟩
    · rintro ⟨l, h1, h2⟩; exact ⟨l, (hl l).2 h1, h2⟩

/-! ## Examples, and what is false -/

def toyPar : Par (List Bytes) := { tr := listDict.tr, ids := id, hash := fun b => b.foldl (fun h c => 31 * h + c + 1) 0, float := fun v => v.toNat }

def kv (k v : Bytes) : KeyValue := { key := k, value := some (.str v) }

/-- Gauge `g` of two points, the second without value; sum `s` of one point. Two resources. -/
def toyData : List (ResourceG Metric) :=
  [{ resource := some { attrs := [kv [114] [49]] },
     scopes := [{ scope := some { name := [], version := [], attrs := [kv [115] [49]] },
                  items := [{ name := [103], data := some (.gauge [{ attrs := [kv [97] [49]], time := 5, value := some (.double 7) },
                                                                  { attrs := [kv [97] [50]], time := 6 }]) },
                            { name := [115], data := some (.sum 2 true [{ time := 7, value := some (.int 9) }]) },
                            { name := [104], data := some (.hist 1 [{ time := 8, body := [1] }]) }] }] },
   { resource := some { attrs := [kv [114] [50]] },
     scopes := [{ items := [{ name := [103], data := some (.gauge [{ attrs := [kv [97] [49]], time := 5, value := some (.double 8) }]) }] }] }]

set_option synthInstance.maxSize 1024 in
/-- Five rows. -/
example : ((append toyPar toyData { st := [] }).map fun m => m.rows.map fun r => (r.name, r.time, r.gauge, r.histogram, r.id)) =
    some [([103], 5, some 7, none, 0), ([103], 6, some 7, none, 1), ([115], 7, some 9, none, 2), ([104], 8, none, some [1], 3),
      ([103], 5, some 8, none, 4)] := by decide +kernel

theorem toy_run : (append toyPar toyData { st := [] }).isSome = true := by decide +kernel

/-- The state after appending `toyData`. -/
def toyM : M (List Bytes) := (append toyPar toyData { st := [] }).get toy_run

theorem toyM_eq : appendAll toyPar [toyData] { st := [] } = some toyM := by
  simp only [appendAll]
  rw [show append toyPar toyData { st := [] } = some toyM from (Option.some_get toy_run).symm]

/-- **C62 is false** of points without value: the row has the value of the point before. -/
theorem C62_stale : ∃ r f, toyM.rows[1]? = some r ∧ (facts toyData)[1]? = some f ∧ f.number toyPar.float = none ∧ r.gauge = some 7 := by
  have h1 : toyM.rows[1]?.map (·.gauge) = some (some 7) := by decide +kernel
  cases hr : toyM.rows[1]? with
  | none => rw [hr] at h1; exact (nomatch h1)
  | some r =>
    rw [hr] at h1
    exact ⟨r, _, rfl, rfl, rfl, by simpa using h1⟩

/-- **C62 is false** of attributes without value: the process ends, whatever the dictionary. -/
theorem C62_crash (P : Par σ) (m : M σ) (k : Bytes) (rest : List (ResourceG Metric)) :
    append P ({ resource := some { attrs := [{ key := k, value := none }] }, scopes := [] } :: rest) m = none := rfl

/-- **C63 is false**: the first point has the resource attribute `r=1`, whose column is known, but its bit is not set. -/
theorem C63_refuted : ∃ f c l, (facts toyData)[0]? = some f ∧ (∃ kv ∈ f.resource, KeyValue.label kv = some l) ∧
    listDict.look toyM.st l = some c ∧ c < 2 ^ 20 ∧ pos 0 c ∉ toyM.positions := by
  refine ⟨_, 0, [114, 61, 49], rfl, ⟨kv [114] [49], List.mem_cons_self, rfl⟩, ?_, by decide, ?_⟩
  · decide +kernel
  · decide +kernel

/-- **C63 is false** of dictionaries with more than 2^20 labels: columns that far apart have the same bit. -/
theorem C63_collide (r c : Nat) : pos r (c + 2 ^ 20) = pos r c := by
  unfold pos
  rw [show Bt.shardWidth = 2 ^ 20 from rfl, Nat.add_mod_right]

/-- **C63 is false** of keys with `=`: different attributes have the same label. -/
theorem C63_ambiguous (a b c : Bytes) : KeyValue.label (kv (a ++ [61] ++ b) c) = KeyValue.label (kv a (b ++ [61] ++ c)) := by
  simp [KeyValue.label, kv]

/-- **C64 is false**: rows 0 and 4 come from different resources and have the same hash. -/
theorem C64_refuted : toyM.rows[0]?.map (·.hash) = toyM.rows[4]?.map (·.hash) ∧
    toyM.rows[0]?.map (·.attributes) ≠ toyM.rows[4]?.map (·.attributes) := by
  constructor
  · decide +kernel
  · decide +kernel

theorem columns_unique {σ : Type} {D : Dict σ} {st : σ} {f : Fact} {a b : Bm} (ha : f.Columns D st a) (hb : f.Columns D st b) : a = b :=
  Bm.ext ha.1 hb.1 fun c => by rw [ha.2, hb.2]

/-- The hypotheses of `C64_hash` hold of rows 0 and 1, which differ in an attribute. -/
example : ∃ f g, (facts toyData)[0]? = some f ∧ (facts toyData)[1]? = some g ∧
    (∀ a b, f.Columns listDict toyM.st a → g.Columns listDict toyM.st b → toyPar.hash a = toyPar.hash b → a = b) ∧
    toyM.rows[0]?.map (·.hash) ≠ toyM.rows[1]?.map (·.hash) := by
  refine ⟨_, _, rfl, rfl, fun a b ha hb h => ?_, by decide +kernel⟩
  have key : ∀ (l1 l2 : Bytes) (f : Fact) (c1 c2 : Nat), c1 < c2 → (∀ l, f.Label l ↔ l = l1 ∨ l = l2) →
      listDict.look toyM.st l1 = some c1 → listDict.look toyM.st l2 = some c2 → f.Columns listDict toyM.st [c1, c2] := by
    intro l1 l2 f c1 c2 hlt hl h1 h2
    refine ⟨by simpa using hlt, fun c => ?_⟩
    simp only [List.mem_cons, List.not_mem_nil, or_false, hl]
    constructor
    · rintro (rfl | rfl)
      · exact ⟨l1, .inl rfl, h1⟩
      · exact ⟨l2, .inr rfl, h2⟩
    · rintro ⟨l, rfl | rfl, h⟩
      · rw [h1] at h; exact .inl (Option.some.inj h).symm
      · rw [h2] at h; exact .inr (Option.some.inj h).symm
  have lab : ∀ (f : Fact) (x : KeyValue) (t : Bytes), f.own = [x] → KeyValue.label x = some t → ∀ l, f.Label l ↔ l = nameLabel f.metric.name ∨ l = t := by
    intro f x t ho ht l
    unfold Fact.Label
    rw [ho]
    simp [ht, eq_comm]
  rw [columns_unique ha (key [97, 61, 49] (nameLabel [103]) _ 2 3 (by decide) (fun l => (lab _ (kv [97] [49]) [97, 61, 49] rfl rfl l).trans or_comm) (by decide +kernel) (by decide +kernel)),
    columns_unique hb (key (nameLabel [103]) [97, 61, 50] _ 3 4 (by decide) (lab _ (kv [97] [50]) [97, 61, 50] rfl rfl) (by decide +kernel) (by decide +kernel))] at h
  exact absurd h (by decide)

end Verif.Fl
