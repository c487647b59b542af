import Verif.Spec.Self
import Verif.Lemmas.Bitmap
/-! # Grouping spans: the invariant -/
namespace Verif.Sf

variable {κ β : Type} [DecidableEq κ] {emptySet : κ}

theorem rkey_eq (x : SpanIn κ β) : rkey emptySet x = x.res emptySet := by
  unfold rkey SpanIn.res
  cases x.resource <;> rfl

theorem skey_eq (sc : Scope) (l : List β) : (ScopeSpans.mk (instrumentationScope sc) l sc.schema).key = sc := by
  unfold ScopeSpans.key instrumentationScope
  by_cases h : sc = {}
  · rw [if_pos h, h]; rfl
  · rw [if_neg h]; rfl

/-- The spans of a key. -/
def ofKey (emptySet : κ) (live : List (SpanIn κ β)) (k : κ × Scope) : List β :=
  (live.filter fun x => decide (x.res emptySet = k.1 ∧ x.scope = k.2)).map (·.body)

/-- The first span of a resource. -/
def firstOf (emptySet : κ) (live : List (SpanIn κ β)) (r : κ) : Option (SpanIn κ β) := live.find? fun x => decide (x.res emptySet = r)

theorem ofKey_append (live : List (SpanIn κ β)) (x : SpanIn κ β) (k : κ × Scope) :
    ofKey emptySet (live ++ [x]) k = ofKey emptySet live k ++ if (x.res emptySet, x.scope) = k then [x.body] else [] := by
  unfold ofKey
  rw [List.filter_append, List.map_append]
  congr 1
  by_cases h : (x.res emptySet, x.scope) = k
  · rw [if_pos h]; subst h; simp
  · rw [if_neg h]
    have : ¬ (x.res emptySet = k.1 ∧ x.scope = k.2) := fun ⟨a, b⟩ => h (by rw [a, b])
    simp [this]

theorem ofKey_none {live : List (SpanIn κ β)} {k : κ × Scope} (h : ∀ y ∈ live, (y.res emptySet, y.scope) ≠ k) : ofKey emptySet live k = [] := by
  unfold ofKey
  rw [List.map_eq_nil_iff, List.filter_eq_nil_iff]
  intro y hy hd
  exact h y hy (by have := of_decide_eq_true hd; rw [this.1, this.2])

/-- What holds of the maps after the spans `live`. -/
structure Inv (emptySet : κ) (live : List (SpanIn κ β)) (g : Groups κ β) : Prop where
  rok : g.rsm.Ok
  ptr : ∀ k p, g.ssm.get k = some p → ∃ l, g.heap[p]? = some (ScopeSpans.mk (instrumentationScope k.2) l k.2.schema) ∧
    l = ofKey emptySet live k ∧ l ≠ []
  inj : ∀ k k' p, g.ssm.get k = some p → g.ssm.get k' = some p → k = k'
  keys : ∀ k, g.ssm.get k = none → ∀ x ∈ live, (x.res emptySet, x.scope) ≠ k
  res : ∀ r rs, g.rsm.get r = some rs → rs.scopes ≠ [] ∧ rs.scopes.Nodup ∧ (∀ p, p ∈ rs.scopes ↔ ∃ sc, g.ssm.get (r, sc) = some p) ∧
    ∃ x, firstOf emptySet live r = some x ∧ rs.resource = x.resource.map (·.1) ∧ rs.schema = (x.resource.map (·.2)).getD []
  none' : ∀ r, g.rsm.get r = none → ∀ sc, g.ssm.get (r, sc) = none

theorem Inv.init : Inv emptySet ([] : List (SpanIn κ β)) {} := by
  refine ⟨List.nodup_nil, ?_, ?_, ?_, ?_, ?_⟩ <;> simp [AMap.get]

theorem Inv.lt {live : List (SpanIn κ β)} {g : Groups κ β} (h : Inv emptySet live g) {k : κ × Scope} {p : Nat} (hk : g.ssm.get k = some p) :
    p < g.heap.length := by
  obtain ⟨l, hl, _⟩ := h.ptr k p hk
  exact (List.getElem?_eq_some_iff.1 hl).1

theorem firstOf_append {live : List (SpanIn κ β)} {r : κ} {x y : SpanIn κ β} (h : firstOf emptySet live r = some x) :
    firstOf emptySet (live ++ [y]) r = some x := by
  unfold firstOf at *
  rw [List.find?_append, h]; rfl

theorem firstOf_new {live : List (SpanIn κ β)} {x : SpanIn κ β} (h : ∀ y ∈ live, y.res emptySet ≠ x.res emptySet) :
    firstOf emptySet (live ++ [x]) (x.res emptySet) = some x := by
  unfold firstOf
  rw [List.find?_append, List.find?_eq_none.2]
  · simp
  · intro y hy; simpa using h y hy

theorem Inv.step {live : List (SpanIn κ β)} {g : Groups κ β} (h : Inv emptySet live g) (x : SpanIn κ β) :
    Inv emptySet (live ++ [x]) (addSpan emptySet g x) := by
  unfold addSpan addScope addRes
  rw [rkey_eq]
  cases hk : g.ssm.get (x.res emptySet, x.scope) with
  | some p =>
    simp only
    cases hr : g.rsm.get (x.res emptySet) with
    | none => exact absurd hk (by rw [h.none' _ hr]; exact fun h => nomatch h)
    | some rs =>
      simp only [if_true]
      refine ⟨h.rok, ?_, h.inj, ?_, ?_, h.none'⟩
      · intro k q hq
        obtain ⟨l, h1, h2, h3⟩ := h.ptr k q hq
        by_cases he : (x.res emptySet, x.scope) = k
        · subst he
          rw [hk] at hq; cases hq
          refine ⟨l ++ [x.body], ?_, ?_, by simp⟩
          · simp only [List.getElem?_modify, h1]
            simp [ScopeSpans.push]
          · rw [ofKey_append, if_pos rfl, h2]
        · refine ⟨l, ?_, ?_, h3⟩
          · have : p ≠ q := fun e => he (h.inj _ _ p hk (e ▸ hq))
            simp only [List.getElem?_modify, h1]
            simp [this]
          · rw [ofKey_append, if_neg he, List.append_nil, h2]
      · intro k hn y hy
        rcases List.mem_append.1 hy with hy | hy
        · exact h.keys k hn y hy
        · rw [List.mem_singleton.1 hy]; rintro rfl; rw [hk] at hn; cases hn
      · intro r rs' hrs
        obtain ⟨h0, h1, h2, y, h3, h4⟩ := h.res r rs' hrs
        exact ⟨h0, h1, h2, y, firstOf_append h3, h4⟩
  | none =>
    simp only
    have hssm : ∀ k, (g.ssm.set (x.res emptySet, x.scope) g.heap.length).get k =
        if (x.res emptySet, x.scope) = k then some g.heap.length else g.ssm.get k := fun k => AMap.get_set _ _ _ _
    -- everything but the resources
    have hptr : ∀ k p, (g.ssm.set (x.res emptySet, x.scope) g.heap.length).get k = some p → ∃ l,
        (g.heap ++ [ScopeSpans.mk (instrumentationScope x.scope) [x.body] x.scope.schema])[p]? =
          some (ScopeSpans.mk (instrumentationScope k.2) l k.2.schema) ∧ l = ofKey emptySet (live ++ [x]) k ∧ l ≠ [] := by
      intro k p hp
      rw [hssm] at hp
      by_cases he : (x.res emptySet, x.scope) = k
      · rw [if_pos he] at hp; cases hp; subst he
        refine ⟨[x.body], by simp, ?_, by simp⟩
        rw [ofKey_append, if_pos rfl, ofKey_none (h.keys _ hk)]; rfl
      · rw [if_neg he] at hp
        obtain ⟨l, h1, h2, h3⟩ := h.ptr k p hp
        refine ⟨l, ?_, ?_, h3⟩
        · rw [List.getElem?_append_left (h.lt hp), h1]
        · rw [ofKey_append, if_neg he, List.append_nil, h2]
    have hinj : ∀ k k' p, (g.ssm.set (x.res emptySet, x.scope) g.heap.length).get k = some p →
        (g.ssm.set (x.res emptySet, x.scope) g.heap.length).get k' = some p → k = k' := by
      intro k k' p h1 h2
      rw [hssm] at h1 h2
      by_cases e1 : (x.res emptySet, x.scope) = k
      · by_cases e2 : (x.res emptySet, x.scope) = k'
        · rw [← e1, ← e2]
        · rw [if_pos e1] at h1; rw [if_neg e2] at h2; cases h1
          exact absurd (h.lt h2) (Nat.lt_irrefl _)
      · by_cases e2 : (x.res emptySet, x.scope) = k'
        · rw [if_neg e1] at h1; rw [if_pos e2] at h2; cases h2
          exact absurd (h.lt h1) (Nat.lt_irrefl _)
        · rw [if_neg e1] at h1; rw [if_neg e2] at h2
          exact h.inj _ _ _ h1 h2
    have hkeys : ∀ k, (g.ssm.set (x.res emptySet, x.scope) g.heap.length).get k = none → ∀ y ∈ live ++ [x], (y.res emptySet, y.scope) ≠ k := by
      intro k hn y hy
      rw [hssm] at hn
      by_cases he : (x.res emptySet, x.scope) = k
      · rw [if_pos he] at hn; cases hn
      · rw [if_neg he] at hn
        rcases List.mem_append.1 hy with hy | hy
        · exact h.keys k hn y hy
        · rw [List.mem_singleton.1 hy]; exact he
    have hother : ∀ r rs, r ≠ x.res emptySet → g.rsm.get r = some rs → rs.scopes ≠ [] ∧ rs.scopes.Nodup ∧
        (∀ p, p ∈ rs.scopes ↔ ∃ sc, (g.ssm.set (x.res emptySet, x.scope) g.heap.length).get (r, sc) = some p) ∧
        ∃ y, firstOf emptySet (live ++ [x]) r = some y ∧ rs.resource = y.resource.map (·.1) ∧ rs.schema = (y.resource.map (·.2)).getD [] := by
      intro r rs hne hrs
      obtain ⟨h0, h1, h2, y, h3, h4⟩ := h.res r rs hrs
      refine ⟨h0, h1, fun p => ?_, y, firstOf_append h3, h4⟩
      rw [h2 p]
      have : ∀ sc, (x.res emptySet, x.scope) ≠ (r, sc) := fun sc e => hne (by cases e; rfl)
      simp only [hssm, if_neg (this _)]
    cases hr : g.rsm.get (x.res emptySet) with
    | none =>
      refine ⟨AMap.set_ok h.rok _ _, hptr, hinj, hkeys, ?_, ?_⟩
      · intro r rs hrs
        simp only [AMap.get_set] at hrs
        by_cases he : x.res emptySet = r
        · subst he
          rw [if_pos rfl] at hrs; cases hrs
          refine ⟨by simp, by simp, fun p => ?_, x, ?_, rfl, rfl⟩
          · simp only [List.mem_singleton, hssm]
            constructor
            · rintro rfl; exact ⟨x.scope, by rw [if_pos rfl]⟩
            · rintro ⟨sc, hsc⟩
              by_cases e : (x.res emptySet, x.scope) = (x.res emptySet, sc)
              · rw [if_pos e] at hsc; cases hsc; rfl
              · rw [if_neg e, h.none' _ hr] at hsc; cases hsc
          · refine firstOf_new fun y hy e => ?_
            exact h.keys _ (h.none' _ hr y.scope) y hy (by rw [e])
        · rw [if_neg he] at hrs
          exact hother r rs (Ne.symm he) hrs
      · intro r hn sc
        simp only [AMap.get_set] at hn
        by_cases he : x.res emptySet = r
        · rw [if_pos he] at hn; cases hn
        · rw [if_neg he] at hn
          rw [hssm, if_neg (fun e => he (by cases e; rfl))]
          exact h.none' r hn sc
    | some rs =>
      simp only
      rw [if_neg (by decide)]
      refine ⟨AMap.set_ok h.rok _ _, hptr, hinj, hkeys, ?_, ?_⟩
      · intro r rs' hrs
        simp only [AMap.get_set] at hrs
        by_cases he : x.res emptySet = r
        · subst he
          rw [if_pos rfl] at hrs; cases hrs
          obtain ⟨h0, h1, h2, y, h3, h4, h5⟩ := h.res _ rs hr
          refine ⟨by simp [ResPtr.extend], ?_, fun p => ?_, y, firstOf_append h3, h4, h5⟩
          · refine List.nodup_append.2 ⟨h1, by simp, ?_⟩
            rintro a ha b hb rfl
            rw [List.mem_singleton] at hb
            obtain ⟨sc, hsc⟩ := (h2 a).1 ha
            exact absurd (h.lt hsc) (by rw [hb]; exact Nat.lt_irrefl _)
          · simp only [ResPtr.extend, List.mem_append, List.mem_singleton, hssm, h2 p]
            constructor
            · rintro (⟨sc, hsc⟩ | rfl)
              · refine ⟨sc, ?_⟩
                rw [if_neg, hsc]
                intro e; rw [← e, hk] at hsc; cases hsc
              · exact ⟨x.scope, by rw [if_pos rfl]⟩
            · rintro ⟨sc, hsc⟩
              by_cases e : (x.res emptySet, x.scope) = (x.res emptySet, sc)
              · rw [if_pos e] at hsc; cases hsc; exact .inr rfl
              · rw [if_neg e] at hsc; exact .inl ⟨sc, hsc⟩
        · rw [if_neg he] at hrs
          exact hother r rs' (Ne.symm he) hrs
      · intro r hn sc
        simp only [AMap.get_set] at hn
        by_cases he : x.res emptySet = r
        · rw [if_pos he] at hn; cases hn
        · rw [if_neg he] at hn
          rw [hssm, if_neg (fun e => he (by cases e; rfl))]
          exact h.none' r hn sc

theorem Inv.fold (xs : List (SpanIn κ β)) {live : List (SpanIn κ β)} {g : Groups κ β} (h : Inv emptySet live g) :
    Inv emptySet (live ++ xs) (xs.foldl (addSpan emptySet) g) := by
  induction xs generalizing live g with
  | nil => simpa using h
  | cons x xs ih =>
    have := ih (h.step x)
    simpa using this

end Verif.Sf
