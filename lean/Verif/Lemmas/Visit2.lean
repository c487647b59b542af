import Verif.Lemmas.Visit
/-!
# Lemmas about trimming payloads: acceptance and trees
-/
namespace Verif.Vs
open St (Filter)
variable {P : Hashes}

/-! ## Acceptance -/

theorem accept_iff {b : Bm} {asked : List Bytes} {v : Bytes} (hb : ∀ h, h ∈ b ↔ ∃ v ∈ asked, h = P.H v)
    (hf : ∀ w ∈ asked, P.H w = P.H v → w = v) : accept P b v = true ↔ OneOf asked v := by
  unfold accept OneOf
  rw [Bool.or_eq_true, List.isEmpty_iff, List.contains_iff_mem, hb]
  constructor
  · rintro (h | ⟨w, hw, he⟩)
    · left
      rw [List.eq_nil_iff_forall_not_mem]
      intro w hw
      have := (hb (P.H w)).2 ⟨w, hw, rfl⟩
      rw [h] at this
      cases this
    · right; rw [← hf w hw he.symm]; exact hw
  · rintro (h | h)
    · left
      rw [List.eq_nil_iff_forall_not_mem]
      intro x hx
      obtain ⟨w, hw, -⟩ := (hb x).1 hx
      rw [h] at hw
      cases hw
    · exact .inr ⟨v, h, rfl⟩

theorem oneId_map {ids : List Bytes} {id : Option Bytes} : OneId (ids.map some) id ↔ OneOf ids (id.getD []) := by
  simp [OneId, OneOf]

theorem attrHashes_mem {ls : List KeyValue} {b b' : Bm} (h : attrHashes P ls b = some b') :
    (∀ x, x ∈ b' ↔ x ∈ b ∨ ∃ kv ∈ ls, ∃ s, kv.value = some (.str s) ∧ x = P.H (pair kv.key s)) ∧ (b.Ok → b'.Ok) := by
  induction ls generalizing b with
  | nil =>
    simp only [attrHashes, Option.some.injEq] at h
    subst h; simp
  | cons kv r ih =>
    unfold attrHashes at h
    cases hv : kv.value with
    | none => rw [hv] at h; cases h
    | some v =>
      cases v with
      | str s =>
        rw [hv] at h
        obtain ⟨h1, h2⟩ := ih h
        refine ⟨fun x => ?_, fun hb => h2 (Bm.add_ok hb _)⟩
        rw [h1, Bm.mem_add]
        simp only [List.mem_cons, exists_eq_or_imp, hv, Option.some.injEq, AnyValue.str.injEq, exists_eq_left']
        tauto
      | other raw =>
        rw [hv] at h
        obtain ⟨h1, h2⟩ := ih h
        refine ⟨fun x => ?_, h2⟩
        rw [h1]
        simp [hv]

theorem attrHashes_some {ls : List KeyValue} (b : Bm) (h : ∀ kv ∈ ls, kv.value ≠ none) : (attrHashes P ls b).isSome := by
  induction ls generalizing b with
  | nil => rfl
  | cons kv r ih =>
    unfold attrHashes
    cases hv : kv.value with
    | none => exact absurd hv (h kv List.mem_cons_self)
    | some v =>
      have := fun b => ih b (fun kv hk => h kv (List.mem_cons_of_mem _ hk))
      cases v <;> exact this _

theorem and_length {a b : Bm} (ha : a.Ok) (hb : b.Ok) : (b.and a).length = a.length ↔ ∀ x ∈ a, x ∈ b := by
  constructor
  · intro h x hx
    have hn : (b.and a).Nodup := (Bm.and_ok (b := a) hb).imp (fun h => Nat.ne_of_lt h)
    have hs : (b.and a).Subperm a := List.subperm_of_subset hn (fun z hz => (Bm.mem_and.1 hz).2)
    have hp := hs.perm_of_length_le (by rw [h])
    exact (Bm.mem_and.1 (hp.mem_iff.2 hx)).1
  · intro h
    have : b.and a = a := Bm.ext (Bm.and_ok hb) ha (fun z => by rw [Bm.mem_and]; exact ⟨fun h => h.2, fun hz => ⟨h z hz, hz⟩⟩)
    rw [this]

theorem matchAttr_iff {a : Bm} (ha : a.Ok) {asked : List (Bytes × Bytes)} {ls : List KeyValue} {r : Bool}
    (hb : ∀ h, h ∈ a ↔ ∃ p ∈ asked, h = P.H0 (pair p.1 p.2))
    (hf : ∀ p ∈ asked, ∀ kv ∈ ls, ∀ s, kv.value = some (.str s) → (P.H0 (pair p.1 p.2) = P.H (pair kv.key s) ↔ p.1 = kv.key ∧ p.2 = s))
    (h : matchAttr P a ls = some r) : r = true ↔ AllOf asked ls := by
  unfold matchAttr at h
  split at h
  · rename_i he
    rw [List.isEmpty_iff] at he
    cases h
    refine iff_of_true rfl fun p hp => ?_
    have := (hb _).2 ⟨p, hp, rfl⟩
    rw [he] at this
    cases this
  · split at h
    · cases h
    · rename_i b hh
      cases h
      obtain ⟨h1, h2⟩ := attrHashes_mem hh
      rw [beq_iff_eq, and_length ha (h2 List.Pairwise.nil)]
      constructor
      · intro hall p hp
        have := (h1 _).1 (hall _ ((hb _).2 ⟨p, hp, rfl⟩))
        simp only [List.not_mem_nil, false_or] at this
        obtain ⟨kv, hkv, s, hs, he⟩ := this
        obtain ⟨e1, e2⟩ := (hf p hp kv hkv s hs).1 he
        have : ({ key := p.1, value := some (.str p.2) } : KeyValue) = kv := by
          cases kv; simp only at hs e1; rw [hs, e1, e2]
        rw [this]; exact hkv
      · intro hall x hx
        obtain ⟨p, hp, rfl⟩ := (hb x).1 hx
        have hm := hall p hp
        exact (h1 _).2 (.inr ⟨_, hm, p.2, rfl, (hf p hp _ hm p.2 rfl).2 ⟨rfl, rfl⟩⟩)

theorem matchAttr_some {a : Bm} {ls : List KeyValue} (h : ∀ kv ∈ ls, kv.value ≠ none) : (matchAttr P a ls).isSome := by
  unfold matchAttr
  split
  · rfl
  · have := attrHashes_some (P := P) [] h
    cases hh : attrHashes P ls [] with
    | none => rw [hh] at this; cases this
    | some b => rfl

theorem matchAttr_nil {ls : List KeyValue} : matchAttr P [] ls = some true := rfl

theorem andThen_iff {x : Bool} {y : Option Bool} {r : Bool} {p q : Prop} (h : andThen x y = some r) (hx : x = true ↔ p)
    (hy : ∀ b, y = some b → (b = true ↔ q)) : r = true ↔ p ∧ q := by
  unfold andThen at h
  split at h
  · rename_i hx'
    rw [hy r h]
    exact ⟨fun hq => ⟨hx.1 hx', hq⟩, fun hq => hq.2⟩
  · rename_i hx'
    cases h
    simp only [Bool.false_eq_true, false_iff, not_and]
    exact fun hp => absurd (hx.2 hp) hx'

theorem andThen_some {x : Bool} {y : Option Bool} (h : y.isSome) : (andThen x y).isSome := by
  unfold andThen; split <;> simp_all

theorem acceptTimestamp_iff (A : All) (ts : Nat) : acceptTimestamp A ts = true ↔ A.start ≤ ts ∧ ts < A.stop := by
  simp [acceptTimestamp]

/-! ## Trees -/

theorem picked_ne_nil {β γ : Type} {p : β → Prop} {r : β → γ → Prop} {xs : List β} {ys : List γ} (h : Picked p r xs ys) :
    ys ≠ [] ↔ ∃ x ∈ xs, p x := by
  induction h with
  | nil => simp
  | skip hn _ ih => rw [ih]; simp [hn]
  | keep hp _ _ _ => simp [hp]

theorem select_picked {β : Type} {f : β → Option Bool} {p : β → Prop} {xs ys : List β} (h : select f xs = some ys)
    (hf : ∀ x ∈ xs, ∀ b, f x = some b → (b = true ↔ p x)) : Picked p (fun x y => y = x) xs ys := by
  induction xs generalizing ys with
  | nil => cases h; exact .nil
  | cons x xs ih =>
    unfold select at h
    cases hx : f x with
    | none => rw [hx] at h; cases h
    | some b =>
      rw [hx] at h
      cases hr : select f xs with
      | none => rw [hr] at h; cases h
      | some zs =>
        rw [hr] at h
        simp only [Option.some.injEq] at h
        have hp := ih hr (fun x hx => hf x (List.mem_cons_of_mem _ hx))
        have hb := hf x List.mem_cons_self b hx
        cases b with
        | true => simp only [if_true] at h; subst h; exact .keep (hb.1 rfl) rfl hp
        | false => simp only [Bool.false_eq_true, if_false] at h; subst h; exact .skip (fun hp => by cases hb.2 hp) hp

theorem select_some {β : Type} {f : β → Option Bool} {xs : List β} (hf : ∀ x ∈ xs, (f x).isSome) : (select f xs).isSome := by
  induction xs with
  | nil => rfl
  | cons x xs ih =>
    unfold select
    obtain ⟨b, hb⟩ := Option.isSome_iff_exists.1 (hf x List.mem_cons_self)
    obtain ⟨ys, hys⟩ := Option.isSome_iff_exists.1 (ih fun x hx => hf x (List.mem_cons_of_mem _ hx))
    rw [hb, hys]; rfl

variable {α : Type} {A : All} {W : Wanted} {sel : List α → Option (List α)} {has : List α → Prop} {items : List α → List α → Prop}

theorem visitScopes_picked {ss out : List (ScopeG α)} (h : visitScopes P A sel ss = some out)
    (hs : ∀ sm ∈ ss, ∀ b, acceptScope P A sm = some b → (b = true ↔ ScopeOk W sm))
    (hi : ∀ sm ∈ ss, ∀ ys, sel sm.items = some ys → items sm.items ys ∧ (ys ≠ [] ↔ has sm.items)) :
    ScopesPicked W has items ss out := by
  induction ss generalizing out with
  | nil => cases h; exact .nil
  | cons sm rest ih =>
    have ih' := fun out h => ih (out := out) h (fun x hx => hs x (List.mem_cons_of_mem _ hx)) (fun x hx => hi x (List.mem_cons_of_mem _ hx))
    unfold visitScopes at h
    cases ha : acceptScope P A sm with
    | none => rw [ha] at h; cases h
    | some b =>
      have hb := hs sm List.mem_cons_self b ha
      rw [ha] at h
      cases b with
      | false => exact .skip (fun hc => by cases hb.2 hc.1) (ih' out h)
      | true =>
        simp only at h
        cases hsel : sel sm.items with
        | none => rw [hsel] at h; cases h
        | some ys =>
          rw [hsel] at h
          obtain ⟨h1, h2⟩ := hi sm List.mem_cons_self ys hsel
          cases hr : visitScopes P A sel rest with
          | none => rw [hr] at h; cases h
          | some os =>
            rw [hr] at h
            simp only [Option.some.injEq] at h
            cases ys with
            | nil =>
              simp only [List.isEmpty_nil, if_true] at h
              subst h
              exact .skip (fun hc => h2.2 hc.2 rfl) (ih' _ hr)
            | cons y ys =>
              simp only [List.isEmpty_cons, Bool.false_eq_true, if_false] at h
              subst h
              exact .keep ⟨hb.1 rfl, h2.1 (by simp)⟩ ⟨rfl, h1⟩ (ih' _ hr)

theorem visitScopes_some {ss : List (ScopeG α)} (hs : ∀ sm ∈ ss, (acceptScope P A sm).isSome) (hi : ∀ sm ∈ ss, (sel sm.items).isSome) :
    (visitScopes P A sel ss).isSome := by
  induction ss with
  | nil => rfl
  | cons sm rest ih =>
    have ih' := ih (fun x hx => hs x (List.mem_cons_of_mem _ hx)) (fun x hx => hi x (List.mem_cons_of_mem _ hx))
    obtain ⟨b, hb⟩ := Option.isSome_iff_exists.1 (hs sm List.mem_cons_self)
    obtain ⟨ys, hys⟩ := Option.isSome_iff_exists.1 (hi sm List.mem_cons_self)
    obtain ⟨os, hos⟩ := Option.isSome_iff_exists.1 ih'
    unfold visitScopes
    rw [hb]
    cases b with
    | false => exact ih'
    | true => simp only [hys, hos]; rfl

theorem visitResources_picked {rs out : List (ResourceG α)} (h : visitResources P A sel rs = some out)
    (hr : ∀ rm ∈ rs, ∀ b, acceptResource P A rm = some b → (b = true ↔ ResourceOk W rm))
    (hs : ∀ rm ∈ rs, ∀ sm ∈ rm.scopes, ∀ b, acceptScope P A sm = some b → (b = true ↔ ScopeOk W sm))
    (hi : ∀ rm ∈ rs, ∀ sm ∈ rm.scopes, ∀ ys, sel sm.items = some ys → items sm.items ys ∧ (ys ≠ [] ↔ has sm.items)) :
    ResourcesPicked W has items rs out := by
  induction rs generalizing out with
  | nil => cases h; exact .nil
  | cons rm rest ih =>
    have ih' := fun out h => ih (out := out) h (fun x hx => hr x (List.mem_cons_of_mem _ hx)) (fun x hx => hs x (List.mem_cons_of_mem _ hx))
      (fun x hx => hi x (List.mem_cons_of_mem _ hx))
    unfold visitResources at h
    cases ha : acceptResource P A rm with
    | none => rw [ha] at h; cases h
    | some b =>
      have hb := hr rm List.mem_cons_self b ha
      rw [ha] at h
      cases b with
      | false => exact .skip (fun hc => by cases hb.2 hc.1) (ih' out h)
      | true =>
        simp only at h
        cases hsel : visitScopes P A sel rm.scopes with
        | none => rw [hsel] at h; cases h
        | some ys =>
          rw [hsel] at h
          have hp := visitScopes_picked (W := W) (has := has) (items := items) hsel (hs rm List.mem_cons_self) (hi rm List.mem_cons_self)
          have hne := picked_ne_nil hp
          cases hr : visitResources P A sel rest with
          | none => rw [hr] at h; cases h
          | some os =>
            rw [hr] at h
            simp only [Option.some.injEq] at h
            cases ys with
            | nil =>
              simp only [List.isEmpty_nil, if_true] at h
              subst h
              exact .skip (fun hc => hne.2 hc.2 rfl) (ih' _ hr)
            | cons y ys =>
              simp only [List.isEmpty_cons, Bool.false_eq_true, if_false] at h
              subst h
              exact .keep ⟨hb.1 rfl, hne.1 (by simp)⟩ ⟨rfl, rfl, hp⟩ (ih' _ hr)

theorem visitResources_some {rs : List (ResourceG α)} (hr : ∀ rm ∈ rs, (acceptResource P A rm).isSome)
    (hs : ∀ rm ∈ rs, ∀ sm ∈ rm.scopes, (acceptScope P A sm).isSome) (hi : ∀ rm ∈ rs, ∀ sm ∈ rm.scopes, (sel sm.items).isSome) :
    (visitResources P A sel rs).isSome := by
  induction rs with
  | nil => rfl
  | cons rm rest ih =>
    have ih' := ih (fun x hx => hr x (List.mem_cons_of_mem _ hx)) (fun x hx => hs x (List.mem_cons_of_mem _ hx))
      (fun x hx => hi x (List.mem_cons_of_mem _ hx))
    obtain ⟨b, hb⟩ := Option.isSome_iff_exists.1 (hr rm List.mem_cons_self)
    obtain ⟨ys, hys⟩ := Option.isSome_iff_exists.1 (visitScopes_some (P := P) (A := A) (sel := sel) (hs rm List.mem_cons_self) (hi rm List.mem_cons_self))
    obtain ⟨os, hos⟩ := Option.isSome_iff_exists.1 ih'
    unfold visitResources
    rw [hb]
    cases b with
    | false => exact ih'
    | true => simp only [hys, hos]; rfl

/-- The metrics of a scope. -/
theorem selectMetrics_picked {start stop : Nat} {ms out : List Metric} (h : selectMetrics P A ms = some out)
    (hn : ∀ m ∈ ms, accept P A.name m.name = true ↔ OneOf W.name m.name)
    (hp : ∀ m ∈ ms, ∀ d, m.data = some d → ∀ p ∈ d.points, ∀ b, acceptPoint P A p = some b → (b = true ↔ PointOk W start stop p)) :
    Picked (MetricOk W start stop) (MetricTrimmed W start stop) ms out := by
  induction ms generalizing out with
  | nil => cases h; exact .nil
  | cons m rest ih =>
    have ih' := fun out h => ih (out := out) h (fun x hx => hn x (List.mem_cons_of_mem _ hx)) (fun x hx => hp x (List.mem_cons_of_mem _ hx))
    have hnm := hn m List.mem_cons_self
    have hpm := hp m List.mem_cons_self
    unfold selectMetrics at h
    split at h
    · rename_i ha
      cases hd : m.data with
      | none =>
        rw [hd] at h
        exact .skip (fun hc => by obtain ⟨-, d, hd', -⟩ := hc; rw [hd] at hd'; cases hd') (ih' out h)
      | some d =>
        rw [hd] at h
        simp only at h
        cases hsel : select (acceptPoint P A) d.points with
        | none => rw [hsel] at h; cases h
        | some ys =>
          rw [hsel] at h
          have hpk := select_picked hsel (hpm d hd)
          have hne := picked_ne_nil hpk
          cases hr : selectMetrics P A rest with
          | none => rw [hr] at h; cases h
          | some os =>
            rw [hr] at h
            simp only at h
            cases ys with
            | nil =>
              simp only [List.isEmpty_nil, if_true, Option.some.injEq] at h
              subst h
              refine .skip (fun hc => ?_) (ih' _ hr)
              obtain ⟨-, d', hd', hx⟩ := hc
              rw [hd] at hd'
              cases hd'
              exact hne.2 hx rfl
            | cons y ys =>
              simp only [List.isEmpty_cons, Bool.false_eq_true, if_false, Option.some.injEq] at h
              subst h
              refine .keep ⟨hnm.1 ha, d, hd, hne.1 (by simp)⟩ ⟨rfl, d, _, hd, rfl, ?_, ?_, ?_, ?_⟩ (ih' _ hr)
              · cases d.kind <;> rfl
              · intro hk; revert hk; cases d.kind <;> simp
              · intro hk; rw [hk]
              · cases d.kind <;> exact hpk
    · rename_i ha
      exact .skip (fun hc => ha (hnm.2 hc.1)) (ih' out h)

theorem selectMetrics_some {ms : List Metric}
    (hp : ∀ m ∈ ms, ∀ d, m.data = some d → ∀ p ∈ d.points, (acceptPoint P A p).isSome) : (selectMetrics P A ms).isSome := by
  induction ms with
  | nil => rfl
  | cons m rest ih =>
    have ih' := ih (fun x hx => hp x (List.mem_cons_of_mem _ hx))
    obtain ⟨os, hos⟩ := Option.isSome_iff_exists.1 ih'
    unfold selectMetrics
    split
    · cases hd : m.data with
      | none => exact ih'
      | some d =>
        obtain ⟨ys, hys⟩ := Option.isSome_iff_exists.1 (select_some (hp m List.mem_cons_self d hd))
        simp only [hys, hos]
        split <;> rfl
    · exact ih'

end Verif.Vs
