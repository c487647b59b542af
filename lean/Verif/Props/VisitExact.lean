import Verif.Props.Visit
/-!
# C49, C50 exactly

When filters confuse attributes, and when filtering crashes.
-/
namespace Verif.Vs
open St (Filter)
variable {P : Hashes} {fs : List Filter} {start stop : Nat}

/-! ## C49 -/

/-- One key goes on with `=` where the other stops, and the values make up for it: `a=b` with value `c` and `a` with value `b=c`. -/
def LookAlike (k v k' v' : Bytes) : Prop := ∃ m, k' = k ++ [61] ++ m ∧ v = m ++ [61] ++ v'

theorem pair_eq_iff {k v k' v' : Bytes} : pair k v = pair k' v' ↔ (k = k' ∧ v = v') ∨ LookAlike k v k' v' ∨ LookAlike k' v' k v := by
  constructor
  · intro h
    unfold pair at h
    rw [List.append_assoc, List.append_assoc, List.append_eq_append_iff] at h
    rcases h with ⟨a, ha, h⟩ | ⟨a, ha, h⟩
    · cases a with
      | nil =>
        simp only [List.append_nil, List.nil_append, List.singleton_append, List.cons.injEq, true_and] at ha h
        exact .inl ⟨ha.symm, h⟩
      | cons c m =>
        simp only [List.singleton_append, List.cons_append, List.cons.injEq] at h
        obtain ⟨rfl, h⟩ := h
        rw [List.nil_append, List.nil_append] at h
        exact .inr (.inl ⟨m, by simp [ha], by simp [h]⟩)
    · cases a with
      | nil =>
        simp only [List.append_nil, List.nil_append, List.singleton_append, List.cons.injEq, true_and] at ha h
        exact .inl ⟨ha, h.symm⟩
      | cons c m =>
        simp only [List.singleton_append, List.cons_append, List.cons.injEq] at h
        obtain ⟨rfl, h⟩ := h
        rw [List.nil_append, List.nil_append] at h
        exact .inr (.inr ⟨m, by simp [ha], by simp [h]⟩)
  · rintro (⟨rfl, rfl⟩ | ⟨m, rfl, rfl⟩ | ⟨m, rfl, rfl⟩) <;> simp [pair]

/-- **C49**, exactly: when nothing collides, a filter on attribute `k` = `v` takes `k'` = `v'` for it if and only if they are the same
or they look alike. -/
theorem C49_iff {k v k' v' : Bytes} (hP : P.H0 (pair k v) = P.H (pair k' v') ↔ pair k v = pair k' v') :
    attrHash P k v = P.H (pair k' v') ↔ (k = k' ∧ v = v') ∨ LookAlike k v k' v' ∨ LookAlike k' v' k v := by
  unfold attrHash; rw [hP, pair_eq_iff]

/-- Keys without `=` do not look alike. -/
theorem C49_never_alike {k v k' v' : Bytes} (h : (61 : UInt8) ∉ k') : ¬ LookAlike k v k' v' := by
  rintro ⟨m, rfl, -⟩; simp at h

example : LookAlike [97] [98, 61, 99] [97, 61, 98] [99] := ⟨[98], rfl, rfl⟩
example : ¬ LookAlike [97] [98] [97, 61, 98] [99] := by rintro ⟨m, h, h'⟩; cases m <;> simp at h h'

/-! ## C50 -/

/-- An attribute without a value. -/
def Valueless (kvs : List KeyValue) : Prop := ∃ kv ∈ kvs, kv.value = none

/-- A resource or scope that filtering gets to has an attribute without a value, and attributes of resources or scopes are asked for.
(A scope is got to if its resource matches, and its own schema, name and version do.) -/
def Trips {α : Type} (W : Wanted) (rs : List (ResourceG α)) : Prop :=
  ∃ rm ∈ rs, OneOf W.resourceSchema rm.schema ∧
    (W.resourceAttrs ≠ [] ∧ Valueless (resAttrs rm.resource) ∨
      AllOf W.resourceAttrs (resAttrs rm.resource) ∧ ∃ sm ∈ rm.scopes, OneOf W.scopeSchema sm.schema ∧
        OneOf W.scopeName (scName sm.scope) ∧ OneOf W.scopeVersion (scVersion sm.scope) ∧
        W.scopeAttrs ≠ [] ∧ Valueless (scAttrs sm.scope))

/-- The same for a payload. -/
def Data.Trips (W : Wanted) : Data → Prop
  | .logs rs => Vs.Trips W rs
  | .traces rs => Vs.Trips W rs
  | .metrics rs => Vs.Trips W rs
  | .none => False

theorem attrHashes_none {ls : List KeyValue} (b : Bm) : attrHashes P ls b = none ↔ Valueless ls := by
  induction ls generalizing b with
  | nil => simp [attrHashes, Valueless]
  | cons kv ls ih =>
    unfold Valueless at ih ⊢
    cases hv : kv.value with
    | none => simp [attrHashes, hv]
    | some v =>
      cases v with
      | str s => simp [attrHashes, hv, ih]
      | other s => simp [attrHashes, hv, ih]

theorem matchAttr_none {a : Bm} {ls : List KeyValue} : matchAttr P a ls = none ↔ a ≠ [] ∧ Valueless ls := by
  unfold matchAttr
  cases a with
  | nil => simp
  | cons x a =>
    rw [← attrHashes_none (P := P) []]
    cases attrHashes P ls [] with
    | none => simp
    | some b => simp

theorem andThen_none {x : Bool} {y : Option Bool} : andThen x y = none ↔ x = true ∧ y = none := by
  unfold andThen; cases x <;> simp

theorem bitmap_ne {β : Type} {a : Bm} {asked : List β} {f : β → Nat} (h : ∀ n, n ∈ a ↔ ∃ p ∈ asked, n = f p) : a ≠ [] ↔ asked ≠ [] := by
  constructor
  · intro ha e
    cases a with
    | nil => exact ha rfl
    | cons x a =>
      obtain ⟨p, hp, -⟩ := (h x).1 List.mem_cons_self
      rw [e] at hp; cases hp
  · intro ha e
    cases asked with
    | nil => exact ha rfl
    | cons p ps =>
      have := (h (f p)).2 ⟨p, List.mem_cons_self, rfl⟩
      rw [e] at this; cases this

section loops
variable {α : Type} {A : All} {sel : List α → Option (List α)}

theorem visitScopes_none {ss : List (ScopeG α)} (hsel : ∀ sm ∈ ss, (sel sm.items).isSome) :
    visitScopes P A sel ss = none ↔ ∃ sm ∈ ss, acceptScope P A sm = none := by
  induction ss with
  | nil => simp [visitScopes]
  | cons sm ss ih =>
    have ih := ih fun x hx => hsel x (List.mem_cons_of_mem _ hx)
    obtain ⟨ys, hys⟩ := Option.isSome_iff_exists.1 (hsel sm List.mem_cons_self)
    simp only [visitScopes, List.mem_cons, exists_eq_or_imp, ← ih]
    cases ha : acceptScope P A sm with
    | none => simp
    | some b =>
      cases b with
      | false => simp
      | true =>
        simp only [hys]
        cases visitScopes P A sel ss <;> simp

theorem visitResources_none {rs : List (ResourceG α)} (hsel : ∀ rm ∈ rs, ∀ sm ∈ rm.scopes, (sel sm.items).isSome) :
    visitResources P A sel rs = none ↔ ∃ rm ∈ rs, acceptResource P A rm = none ∨
      acceptResource P A rm = some true ∧ ∃ sm ∈ rm.scopes, acceptScope P A sm = none := by
  induction rs with
  | nil => simp [visitResources]
  | cons rm rs ih =>
    have ih := ih fun x hx => hsel x (List.mem_cons_of_mem _ hx)
    simp only [List.mem_cons, exists_eq_or_imp]
    rw [← ih, ← visitScopes_none (sel := sel) (hsel rm List.mem_cons_self)]
    simp only [visitResources]
    cases ha : acceptResource P A rm with
    | none => simp
    | some b =>
      cases b with
      | false => simp
      | true =>
        cases visitScopes P A sel rm.scopes with
        | none => simp
        | some x => cases visitResources P A sel rs <;> simp

theorem trips_iff {item : α → Bytes → Prop} {item' : α → KeyValue → Prop} {rs : List (ResourceG α)}
    (ht : ∀ p v, .base p v ∈ fs → ∀ t, GroupText item rs t → P.H v = P.H t → v = t)
    (ha : ∀ p k v, .attr p k v ∈ fs → ∀ kv s, GroupAttr item' rs kv → kv.value = some (.str s) →
      (P.H0 (pair k v) = P.H (pair kv.key s) ↔ k = kv.key ∧ v = s))
    (hsel : ∀ rm ∈ rs, ∀ sm ∈ rm.scopes, (sel sm.items).isSome) :
    visitResources P (visitor P fs start stop) sel rs = none ↔ Trips (actual fs) rs := by
  have C := compiled P fs start stop
  rw [visitResources_none hsel]
  have hres : ∀ rm ∈ rs, acceptResource P (visitor P fs start stop) rm = none ↔
      OneOf (actual fs).resourceSchema rm.schema ∧ (actual fs).resourceAttrs ≠ [] ∧ Valueless (resAttrs rm.resource) := by
    intro rm hrm
    unfold acceptResource
    rw [andThen_none, matchAttr_none]
    exact and_congr (accept_iff C.resourceSchema (fun w hw => ht _ w (mem_askedBase.1 hw) _ ⟨rm, hrm, .inl rfl⟩))
      (and_congr (bitmap_ne (f := fun a => P.H0 (pair a.1 a.2)) C.resourceAttr) Iff.rfl)
  have hsc : ∀ rm ∈ rs, ∀ sm ∈ rm.scopes, acceptScope P (visitor P fs start stop) sm = none ↔
      OneOf (actual fs).scopeSchema sm.schema ∧ OneOf (actual fs).scopeName (scName sm.scope) ∧
        OneOf (actual fs).scopeVersion (scVersion sm.scope) ∧ (actual fs).scopeAttrs ≠ [] ∧ Valueless (scAttrs sm.scope) := by
    intro rm hrm sm hsm
    unfold acceptScope
    rw [andThen_none, matchAttr_none, Bool.and_eq_true, Bool.and_eq_true, and_assoc, and_assoc]
    refine and_congr ?_ (and_congr ?_ (and_congr ?_ (and_congr (bitmap_ne (f := fun a => P.H0 (pair a.1 a.2)) C.scopeAttr) Iff.rfl)))
    · exact accept_iff C.scopeSchema (fun w hw => ht _ w (mem_askedBase.1 hw) _ ⟨rm, hrm, .inr ⟨sm, hsm, .inl rfl⟩⟩)
    · exact accept_iff C.scopeName (fun w hw => ht _ w (mem_askedBase.1 hw) _ ⟨rm, hrm, .inr ⟨sm, hsm, .inr (.inl rfl)⟩⟩)
    · exact accept_iff C.scopeVersion (fun w hw => ht _ w (mem_askedBase.1 hw) _ ⟨rm, hrm, .inr ⟨sm, hsm, .inr (.inr (.inl rfl))⟩⟩)
  have hok : ∀ rm ∈ rs, acceptResource P (visitor P fs start stop) rm ≠ none →
      (acceptResource P (visitor P fs start stop) rm = some true ↔ ResourceOk (actual fs) rm) := by
    intro rm hrm hn
    cases hb : acceptResource P (visitor P fs start stop) rm with
    | none => exact absurd hb hn
    | some b =>
      rw [← resource_ok (fun p v hp => ht p v hp _ ⟨rm, hrm, .inl rfl⟩)
        (fun p k v hp kv hk s hs => ha p k v hp kv s ⟨rm, hrm, .inl hk⟩ hs) hb, Option.some.injEq]
  unfold Trips
  refine exists_congr fun rm => and_congr_right fun hrm => ?_
  have hs : (∃ sm ∈ rm.scopes, acceptScope P (visitor P fs start stop) sm = none) ↔ _ :=
    exists_congr fun sm => and_congr_right fun hsm => hsc rm hrm sm hsm
  rw [hs]
  by_cases hn : acceptResource P (visitor P fs start stop) rm = none
  · have h := (hres rm hrm).1 hn
    exact iff_of_true (.inl hn) ⟨h.1, .inl h.2⟩
  · rw [hok rm hrm hn]
    have h' := fun h => hn ((hres rm hrm).2 h)
    unfold ResourceOk
    constructor
    · rintro (h | ⟨⟨h1, h2⟩, h3⟩)
      · exact absurd h hn
      · exact ⟨h1, .inr ⟨h2, h3⟩⟩
    · rintro ⟨h1, h2 | ⟨h2, h3⟩⟩
      · exact absurd ⟨h1, h2⟩ h'
      · exact .inr ⟨⟨h1, h2⟩, h3⟩
end loops

/-- **C50**, exactly: filtering crashes if and only if attributes of resources (or scopes; a filter on other attributes counts as one
on scopes) are asked for and a resource (or scope) that it gets to has an attribute without a value. Attributes of records never crash
it. -/
theorem C50_panic_iff {d : Data} (hf : Faithful P fs d) : visit P (visitor P fs start stop) d = none ↔ Data.Trips (actual fs) d := by
  have he : (visitor P fs start stop).attr = [] := (compiled P fs start stop).attr
  cases d with
  | none => simp [visit, Data.Trips]
  | logs rs =>
    have := trips_iff (start := start) (stop := stop) (sel := select (acceptLog P (visitor P fs start stop))) hf.text hf.attr
      (fun rm _ sm _ => select_some fun x _ => andThen_some (by rw [he]; rfl))
    simp only [Data.Trips, ← this, visit, visitLogs]
    split <;> simp_all
  | traces rs =>
    have := trips_iff (start := start) (stop := stop) (sel := select (acceptSpan P (visitor P fs start stop))) hf.text hf.attr
      (fun rm _ sm _ => select_some fun x _ => andThen_some (by rw [he]; rfl))
    simp only [Data.Trips, ← this, visit, visitTraces]
    split <;> simp_all
  | metrics rs =>
    have := trips_iff (start := start) (stop := stop) (sel := selectMetrics P (visitor P fs start stop)) hf.text hf.attr
      (fun rm _ sm _ => selectMetrics_some fun m _ d _ p _ => andThen_some (by rw [he]; rfl))
    simp only [Data.Trips, ← this, visit, visitMetrics]
    split <;> simp_all

/-- The deployed hashes on a concrete filter and payload: a valueless scope attribute trips a filter on attributes of records. -/
example : Data.Trips (actual [.attr Pfx.attributes [97] [98]])
    (.logs [{ scopes := [{ scope := some { attrs := [⟨[99], none⟩] }, items := [] }] }]) :=
  ⟨_, List.mem_singleton_self _, .inl rfl, .inr ⟨by intro a h; exact absurd h (by simp [actual, intended, askedAttrs, Pfx.attributes, Pfx.resourceAttributes]),
    _, List.mem_singleton_self _, .inl rfl, .inl rfl, .inl rfl, by simp [actual], ⟨_, List.mem_singleton_self _, rfl⟩⟩⟩

example : visit xx (visitor xx [.attr Pfx.attributes [97] [98]] 0 9)
    (.logs [{ scopes := [{ scope := some { attrs := [⟨[99], none⟩] }, items := [] }] }]) = none := by decide +kernel

/-- A valueless attribute of a record does not. -/
example : visit xx (visitor xx [.attr Pfx.attributes [97] [98]] 0 9)
    (.logs [{ scopes := [{ scope := some { attrs := [⟨[97], some (.str [98])⟩] }, items := [{ ts := 5, attrs := [⟨[99], none⟩] }] }] }]) ≠ none := by
  decide +kernel

/-! ## C48 -/

section items
variable {α : Type} {A : All} {sel : List α → Option (List α)} {Q : α → Prop}

theorem visitScopes_items (hsel : ∀ xs ys, sel xs = some ys → ∀ y ∈ ys, Q y) {ss out : List (ScopeG α)}
    (h : visitScopes P A sel ss = some out) : ∀ sm ∈ out, ∀ y ∈ sm.items, Q y := by
  induction ss generalizing out with
  | nil => cases h; simp
  | cons sm rest ih =>
    unfold visitScopes at h
    split at h
    · cases h
    · exact ih h
    · split at h
      · cases h
      · rename_i items hit
        split at h
        · cases h
        · rename_i os ho
          cases h
          split
          · exact ih ho
          · intro x hx
            rcases List.mem_cons.1 hx with rfl | hx
            · exact hsel _ _ hit
            · exact ih ho x hx

theorem visitResources_items (hsel : ∀ xs ys, sel xs = some ys → ∀ y ∈ ys, Q y) {rs out : List (ResourceG α)}
    (h : visitResources P A sel rs = some out) : ∀ rm ∈ out, ∀ sm ∈ rm.scopes, ∀ y ∈ sm.items, Q y := by
  induction rs generalizing out with
  | nil => cases h; simp
  | cons rm rest ih =>
    unfold visitResources at h
    split at h
    · cases h
    · exact ih h
    · split at h
      · cases h
      · rename_i scopes hsc
        split at h
        · cases h
        · rename_i os ho
          cases h
          split
          · exact ih ho
          · intro x hx
            rcases List.mem_cons.1 hx with rfl | hx
            · exact visitScopes_items hsel hsc
            · exact ih ho x hx
end items

theorem selectMetrics_rest {A : All} {ms out : List Metric} (h : selectMetrics P A ms = some out) : ∀ m ∈ out, m.rest = [] := by
  induction ms generalizing out with
  | nil => cases h; simp
  | cons m rest ih =>
    unfold selectMetrics at h
    split at h
    · split at h
      · exact ih h
      · split at h
        · cases h
        · split at h
          · cases h
          · rename_i os ho
            split at h
            · cases h; exact ih ho
            · cases h
              intro x hx
              rcases List.mem_cons.1 hx with rfl | hx
              · rfl
              · exact ih ho x hx
    · exact ih h

/-- **C48**: the description and unit of every metric are lost too. -/
theorem C48_metric_rest_lost {A : All} {rs out : List (ResourceG Metric)} (h : visit P A (.metrics rs) = some (.metrics out)) :
    ∀ rm ∈ out, ∀ sm ∈ rm.scopes, ∀ m ∈ sm.items, m.rest = [] := by
  simp only [visit] at h
  split at h
  · cases h
  · rename_i o ho; cases h; exact visitResources_items (fun _ _ => selectMetrics_rest) ho

/-- `C50_panic_iff` and `C38_exact` apply: the deployed hashes tell these filters from the texts of this payload. -/
theorem faithful_example : Faithful xx [.base Pfx.scopeName [97], .attr Pfx.resourceAttributes [98] [99]]
    (.logs [{ resource := some { attrs := [⟨[98], some (.str [99])⟩] }, scopes := [{ scope := some { name := [97] }, items := [{ ts := 5 }] }] }]) := by
  have key : ∀ t, HasText (.logs [{ resource := some { attrs := [⟨[98], some (.str [99])⟩] }, scopes := [{ scope := some { name := [97] }, items := [{ ts := 5 }] }] }]) t → t = [97] ∨ t = [] := by
    rintro t ⟨rm, hrm, h⟩
    cases List.mem_singleton.1 hrm
    rcases h with rfl | ⟨sm, hsm, h⟩
    · exact .inr rfl
    · cases List.mem_singleton.1 hsm
      rcases h with rfl | rfl | rfl | ⟨x, hx, rfl⟩
      · exact .inr rfl
      · exact .inl rfl
      · exact .inr rfl
      · cases List.mem_singleton.1 hx; exact .inr rfl
  refine ⟨?_, ?_, ?_⟩
  · rintro p v hp t ht e
    have hv : v = [97] := by
      rcases List.mem_cons.1 hp with h | h
      · cases h; rfl
      · rcases List.mem_singleton.1 h with ⟨⟩
    subst hv
    rcases key t ht with rfl | rfl
    · rfl
    · exact absurd e (by decide +kernel)
  · rintro p v h hp hd t ht e
    have hv : v = [97] := by
      rcases List.mem_cons.1 hp with h | h
      · cases h; rfl
      · rcases List.mem_singleton.1 h with ⟨⟩
    subst hv
    cases hd
  · rintro p k v hp kv s hkv hs
    have hv : k = [98] ∧ v = [99] := by
      rcases List.mem_cons.1 hp with h | h
      · cases h
      · cases List.mem_singleton.1 h; exact ⟨rfl, rfl⟩
    obtain ⟨rfl, rfl⟩ := hv
    have : kv = ⟨[98], some (.str [99])⟩ := by
      obtain ⟨rm, hrm, h⟩ := hkv
      cases List.mem_singleton.1 hrm
      rcases h with h | ⟨sm, hsm, h⟩
      · exact List.mem_singleton.1 h
      · cases List.mem_singleton.1 hsm
        rcases h with h | ⟨x, hx, h⟩
        · cases h
        · cases List.mem_singleton.1 hx; cases h
    subst this
    cases hs
    exact iff_of_true (by decide +kernel) ⟨rfl, rfl⟩

example : ¬ Data.Trips (actual [.base Pfx.scopeName [97], .attr Pfx.resourceAttributes [98] [99]])
    (.logs [{ resource := some { attrs := [⟨[98], some (.str [99])⟩] }, scopes := [{ scope := some { name := [97] }, items := [{ ts := 5 }] }] }]) := by
  rw [← C50_panic_iff (start := 0) (stop := 9) faithful_example]; decide +kernel

end Verif.Vs
