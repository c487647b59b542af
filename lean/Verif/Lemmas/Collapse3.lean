import Verif.Lemmas.Collapse2
import Mathlib.Data.List.Nodup
import Mathlib.Data.List.Induction
/-!
# Merging payloads: scopes, resources, payloads, and the order of the result
-/
namespace Verif.Dt
variable {α β γ ι : Type}

/-- Scopes registered in the first state are registered in the second. -/
def Keeps (st st' : St α) : Prop := ∀ sh, (st.scope.get sh).isSome → (st'.scope.get sh).isSome

theorem Keeps.refl (st : St α) : Keeps st st := fun _ h => h
theorem Keeps.trans {a b c : St α} (h : Keeps a b) (g : Keeps b c) : Keeps a c := fun sh x => g sh (h sh x)

/-- Each scope is registered at its own position. -/
def Ex (P : Par) (st : St α) : Prop := ∀ l r s, At st.out l r s → st.scope.get (hs P r s) = some l

theorem at_shape {P : Par} {out : List (ResourceG α)} {l : Nat × Nat} {sh : Nat} :
    (∃ r s, At out l r s ∧ hs P r s = sh) ↔ ∃ x, (shape P out)[l.1]? = some x ∧ x.2[l.2]? = some sh := by
  unfold shape At
  constructor
  · rintro ⟨r, s, ⟨h1, h2⟩, e⟩
    refine ⟨(hr P r, r.scopes.map (hs P r)), by simp [h1], ?_⟩
    simp [h2, e]
  · rintro ⟨x, h1, h2⟩
    rw [List.getElem?_map, Option.map_eq_some_iff] at h1
    obtain ⟨r, h1, rfl⟩ := h1
    simp only [List.getElem?_map, Option.map_eq_some_iff] at h2
    obtain ⟨s, h2, e⟩ := h2
    exact ⟨r, s, ⟨h1, h2⟩, e⟩

theorem Ex.congr {P : Par} {st st' : St α} (h : Ex P st) (hs' : st'.scope = st.scope) (hsh : shape P st'.out = shape P st.out) :
    Ex P st' := by
  intro l r s ha
  have := (at_shape (P := P) (out := st'.out) (l := l)).1 ⟨r, s, ha, rfl⟩
  rw [hsh] at this
  obtain ⟨r0, s0, ha0, e⟩ := at_shape.2 this
  rw [hs', ← e]; exact h l r0 s0 ha0

/-! ### `regScopes` -/

theorem regScopes_fixed (P : Par) (o : Ops α) (rh i : Nat) : ∀ (rest : List (ScopeG α)) (j : Nat) (st : St α),
    (regScopes P o rh i j rest st).out = st.out ∧ (regScopes P o rh i j rest st).resource = st.resource ∧
    (regScopes P o rh i j rest st).order = st.order := by
  intro rest
  induction rest with
  | nil => intro j st; exact ⟨rfl, rfl, rfl⟩
  | cons s rest ih => intro j st; unfold regScopes; exact ih _ _

theorem regScopes_maps {P : Par} {K : Kd α β ι} {o : Ops α} (ho : OpsOk P K o) {i : Nat} {rm : ResourceG α} :
    ∀ (rest : List (ScopeG α)) (j : Nat) (st : St α), st.out[i]? = some rm → rm.scopes.drop j = rest →
    (∀ sh l, st.scope.get sh = some l → ∃ r s, At st.out l r s ∧ hs P r s = sh) → MOk P K st.out st.metrics →
    (∀ sh l, (regScopes P o (hr P rm) i j rest st).scope.get sh = some l → ∃ r s, At st.out l r s ∧ hs P r s = sh) ∧
    MOk P K st.out (regScopes P o (hr P rm) i j rest st).metrics ∧
    Keeps st (regScopes P o (hr P rm) i j rest st) ∧
    (∀ s ∈ rest, ((regScopes P o (hr P rm) i j rest st).scope.get (hs P rm s)).isSome) := by
  intro rest
  induction rest with
  | nil => intro j st _ _ h1 h2; exact ⟨h1, h2, Keeps.refl _, by simp⟩
  | cons s rest ih =>
    intro j st hi hd h1 h2
    have hj : rm.scopes[j]? = some s := by
      have := congrArg (fun l => l[0]?) hd
      simpa using this
    have hat : At st.out (i, j) rm s := ⟨hi, hj⟩
    have hd' : rm.scopes.drop (j + 1) = rest := by
      have := congrArg (fun l => l.drop 1) hd
      simpa [List.drop_drop, Nat.add_comm] using this
    unfold regScopes
    simp only
    obtain ⟨q1, q2, q3, q4⟩ := ih (j + 1) { st with
        scope := st.scope.set (hashScope P (hr P rm) s.schema s.scope) (i, j)
        metrics := o.reg (hashScope P (hr P rm) s.schema s.scope) (i, j) s.items st.metrics } hi hd' (by
          intro sh l hl
          simp only at hl
          rw [AMap.get_set] at hl
          by_cases hk : hashScope P (hr P rm) s.schema s.scope = sh
          · simp only [hk, if_true, Option.some.injEq] at hl
            subst hl
            exact ⟨rm, s, hat, hk⟩
          · simp only [hk, if_false] at hl
            exact h1 sh l hl) (ho.reg h2 hat rfl)
    have hkeep : Keeps st { st with
        scope := st.scope.set (hashScope P (hr P rm) s.schema s.scope) (i, j)
        metrics := o.reg (hashScope P (hr P rm) s.schema s.scope) (i, j) s.items st.metrics } := by
      intro sh h
      simp only
      rw [AMap.get_set]
      by_cases hk : hashScope P (hr P rm) s.schema s.scope = sh
      · simp [hk]
      · simpa [hk] using h
    refine ⟨q1, q2, hkeep.trans q3, fun t ht => ?_⟩
    rcases List.mem_cons.1 ht with rfl | ht
    · refine q3 _ ?_
      simp only
      rw [AMap.get_set]
      simp [hs]
    · exact q4 t ht

theorem regScopes_get_other (P : Par) (o : Ops α) (rm : ResourceG α) (i : Nat) (sh : Nat) : ∀ (rest : List (ScopeG α)) (j : Nat) (st : St α),
    sh ∉ rest.map (hs P rm) → (regScopes P o (hr P rm) i j rest st).scope.get sh = st.scope.get sh := by
  intro rest
  induction rest with
  | nil => intro j st _; rfl
  | cons s rest ih =>
    intro j st h
    unfold regScopes
    simp only [List.map_cons, List.mem_cons, not_or] at h
    rw [ih _ _ h.2]
    simp only
    rw [AMap.get_set, if_neg]
    intro e; exact h.1 e.symm

theorem regScopes_get_self (P : Par) (o : Ops α) (rm : ResourceG α) (i : Nat) : ∀ (rest : List (ScopeG α)) (j : Nat) (st : St α),
    (rest.map (hs P rm)).Nodup → ∀ (k : Nat) (s : ScopeG α), rest[k]? = some s →
    (regScopes P o (hr P rm) i j rest st).scope.get (hs P rm s) = some (i, j + k) := by
  intro rest
  induction rest with
  | nil => intro j st _ k s h; simp at h
  | cons t rest ih =>
    intro j st hn k s h
    unfold regScopes
    simp only [List.map_cons, List.nodup_cons] at hn
    cases k with
    | zero =>
      simp only [List.getElem?_cons_zero, Option.some.injEq] at h
      subst h
      rw [regScopes_get_other P o rm i _ rest _ _ hn.1]
      simp only
      rw [AMap.get_set]
      simp [hs]
    | succ k =>
      simp only [List.getElem?_cons_succ] at h
      rw [ih (j + 1) _ hn.2 k s h]
      congr 2; omega

/-! ### `addScopes` -/

/-- What adding to the state achieves. -/
structure Done (P : Par) (K : Kd α β ι) (G : Groups ι) (lab : Nat → Nat → Nat → γ) (st st' : St α) (e : List (γ × β)) : Prop where
  inv : Inv P K G st'
  grow : Grow K st.out st'.out
  perm : (recsL P K lab st'.out).Perm (recsL P K lab st.out ++ e)
  keeps : Keeps st st'

theorem scopes_append {P : Par} {K : Kd α β ι} {G : Groups ι} {lab : Nat → Nat → Nat → γ} {out : List (ResourceG α)} {i : Nat}
    {r : ResourceG α} (hi : out[i]? = some r) (sm : ScopeG α) :
    Grow K out (out.modify i fun r => { r with scopes := r.scopes ++ [sm] }) ∧
    (recsL P K lab (out.modify i fun r => { r with scopes := r.scopes ++ [sm] })).Perm
      (recsL P K lab out ++ recsS K lab (hr P r) (hs P r sm) sm) ∧
    (out.modify i fun r => { r with scopes := r.scopes ++ [sm] }).map (hr P) = out.map (hr P) ∧
    At (out.modify i fun r => { r with scopes := r.scopes ++ [sm] }) (i, r.scopes.length) { r with scopes := r.scopes ++ [sm] } sm ∧
    (AllL P G K out → AllS G K (hr P r) (hs P r sm) sm →
      AllL P G K (out.modify i fun r => { r with scopes := r.scopes ++ [sm] })) ∧
    (∀ l r' s', At (out.modify i fun r => { r with scopes := r.scopes ++ [sm] }) l r' s' →
      (l = (i, r.scopes.length) ∧ hs P r' s' = hs P r sm) ∨ ∃ r0 s0, At out l r0 s0 ∧ hs P r0 s0 = hs P r' s') := by
  refine ⟨fun i' x hx => ?_, ?_, map_modify_eq hi _ _ rfl, ⟨?_, by simp⟩, fun hall hs' => ?_, fun l r' s' ha => ?_⟩
  · rw [getElem?_modify']
    by_cases h : i = i'
    · subst h
      rw [hi] at hx; cases hx
      refine ⟨{ r with scopes := r.scopes ++ [sm] }, by rw [if_pos rfl, hi]; rfl, rfl, rfl, fun j t ht => ?_⟩
      refine ⟨t, ?_, GrowS.refl K t⟩
      show (r.scopes ++ [sm])[j]? = _
      rw [List.getElem?_append_left (List.getElem?_eq_some_iff.1 ht).1]; exact ht
    · exact ⟨x, by rw [if_neg h]; exact hx, GrowR.refl K x⟩
  · refine perm_flatMap_modify hi _ _ _ ?_
    simp only [recsR, List.flatMap_append, List.flatMap_cons, List.flatMap_nil, List.append_nil]
    exact List.Perm.refl _
  · show (out.modify i _)[i]? = _
    rw [getElem?_modify', if_pos rfl, hi]; rfl
  · intro x hx
    rcases mem_modify hi hx with rfl | hx
    · intro t ht
      rcases List.mem_append.1 ht with ht | ht
      · exact hall r (List.mem_of_getElem? hi) t ht
      · rw [List.mem_singleton.1 ht]; exact hs'
    · exact hall x hx
  · obtain ⟨h1, h2⟩ := ha
    rw [getElem?_modify'] at h1
    by_cases h : i = l.1
    · rw [if_pos h, ← h, hi] at h1
      simp only [Option.map_some, Option.some.injEq] at h1
      subst h1
      simp only at h2
      by_cases hl : l.2 < r.scopes.length
      · rw [List.getElem?_append_left hl] at h2
        exact .inr ⟨r, s', ⟨by rw [← h]; exact hi, h2⟩, rfl⟩
      · rw [List.getElem?_append_right (by omega)] at h2
        have h3 := (List.getElem?_eq_some_iff.1 h2).1
        simp only [List.length_singleton] at h3
        have h4 : l.2 = r.scopes.length := by omega
        rw [h4] at h2
        simp only [Nat.sub_self, List.getElem?_cons_zero, Option.some.injEq] at h2
        subst h2
        exact .inl ⟨by ext <;> simp [h, h4], rfl⟩
    · rw [if_neg h] at h1
      exact .inr ⟨r', s', ⟨h1, h2⟩, rfl⟩

theorem addScopes_ok {P : Par} {K : Kd α β ι} {G : Groups ι} {lab : Nat → Nat → Nat → γ} {o : Ops α} (ho : OpsOk P K o)
    (hl : LabOk K G lab) {rh i : Nat} : ∀ (rest : List (ScopeG α)) (st st' : St α), Inv P K G st →
    (∃ r, st.out[i]? = some r ∧ hr P r = rh) → (∀ s ∈ rest, AllS G K rh (hashScope P rh s.schema s.scope) s) →
    addScopes P o rh i rest st = some st' →
    Done P K G lab st st' (rest.flatMap fun s => recsS K lab rh (hashScope P rh s.schema s.scope) s) ∧
    st'.out.map (hr P) = st.out.map (hr P) ∧
    (∀ s ∈ rest, (st'.scope.get (hashScope P rh s.schema s.scope)).isSome) ∧ (Ex P st → Ex P st') := by
  intro rest
  induction rest with
  | nil =>
    intro st st' hinv _ _ h
    simp only [addScopes, Option.some.injEq] at h
    subst h
    exact ⟨⟨hinv, Grow.refl K _, by simp, Keeps.refl _⟩, rfl, by simp, id⟩
  | cons sm rest ih =>
    intro st st' hinv hi hall h
    obtain ⟨r, hi, hrh⟩ := hi
    have hsm := hall sm (by simp)
    have hall' : ∀ s ∈ rest, AllS G K rh (hashScope P rh s.schema s.scope) s := fun s hs' => hall s (by simp [hs'])
    unfold addScopes at h
    simp only at h
    cases hg : st.scope.get (hashScope P rh sm.schema sm.scope) with
    | none =>
      simp only [hg, hi] at h
      have hhs : hs P r sm = hashScope P rh sm.schema sm.scope := by unfold hs; rw [hrh]
      obtain ⟨h1, h2, h3, h4, h5, h6⟩ := scopes_append (P := P) (K := K) (G := G) (lab := lab) hi sm
      have hsc : ∀ sh l, (st.scope.set (hashScope P rh sm.schema sm.scope) (i, r.scopes.length)).get sh = some l →
          ∃ r' s', At (st.out.modify i fun r => { r with scopes := r.scopes ++ [sm] }) l r' s' ∧ hs P r' s' = sh := by
        intro sh l hl'
        rw [AMap.get_set] at hl'
        by_cases hk : hashScope P rh sm.schema sm.scope = sh
        · simp only [hk, if_true, Option.some.injEq] at hl'
          subst hl'
          exact ⟨_, sm, h4, by rw [← hk, ← hhs]; rfl⟩
        · simp only [hk, if_false] at hl'
          obtain ⟨r0, s0, ha0, e0⟩ := hinv.scope sh l hl'
          obtain ⟨r1, s1, ha1, gr, gs⟩ := h1.at ha0
          exact ⟨r1, s1, ha1, by rw [gs.hs gr]; exact e0⟩
      have hmet : MOk P K (st.out.modify i fun r => { r with scopes := r.scopes ++ [sm] })
          (o.reg (hashScope P rh sm.schema sm.scope) (i, r.scopes.length) sm.items st.metrics) :=
        ho.reg (hinv.met.grow h1) h4 hhs
      have hinv1 : Inv P K G { st with
          out := st.out.modify i fun r => { r with scopes := r.scopes ++ [sm] }
          scope := st.scope.set (hashScope P rh sm.schema sm.scope) (i, r.scopes.length)
          metrics := o.reg (hashScope P rh sm.schema sm.scope) (i, r.scopes.length) sm.items st.metrics } :=
        { res := fun a b => (by
            show st.resource.get a = some b ↔ _
            rw [res_of_hrs h3]; exact hinv.res a b)
          ord := (by show st.order = _; rw [hinv.ord]; exact (mapIdx_congr_map _ h3).symm)
          scope := hsc
          met := hmet
          all := h5 hinv.all (by rw [hhs, hrh]; exact hsm) }
      have hkeep : Keeps st { st with
          out := st.out.modify i fun r => { r with scopes := r.scopes ++ [sm] }
          scope := st.scope.set (hashScope P rh sm.schema sm.scope) (i, r.scopes.length)
          metrics := o.reg (hashScope P rh sm.schema sm.scope) (i, r.scopes.length) sm.items st.metrics } := by
        intro sh hsome
        simp only
        rw [AMap.get_set]
        by_cases hk : hashScope P rh sm.schema sm.scope = sh
        · simp [hk]
        · simpa [hk] using hsome
      obtain ⟨q1, q2, q3, q4⟩ := ih _ st' hinv1 ⟨_, h4.1, hrh⟩ hall' h
      refine ⟨⟨q1.inv, h1.trans q1.grow, ?_, hkeep.trans q1.keeps⟩, q2.trans h3, fun s hs' => ?_, fun hex => q4 ?_⟩
      · rw [List.flatMap_cons]
        have := q1.perm.trans (h2.append_right _)
        rw [hrh, hhs] at this
        simpa using this
      · rcases List.mem_cons.1 hs' with rfl | hs'
        · refine q1.keeps _ ?_
          simp only
          rw [AMap.get_set]; simp
        · exact q3 s hs'
      · intro l r' s' ha
        show (st.scope.set _ _).get _ = _
        rw [AMap.get_set]
        rcases h6 l r' s' ha with ⟨e1, e2⟩ | ⟨r0, s0, ha0, e0⟩
        · rw [if_pos (by rw [e2, hhs]), e1]
        · rw [if_neg, ← e0]
          · exact hex l r0 s0 ha0
          · intro e
            have := hex l r0 s0 ha0
            rw [e0, ← e, hg] at this
            simp at this
    | some l =>
      simp only [hg] at h
      cases ha : o.add (hashScope P rh sm.schema sm.scope) l sm.items st with
      | none => simp [ha] at h
      | some st1 =>
        simp only [ha] at h
        obtain ⟨a1, a2, a3⟩ := ho.add hl hinv (hinv.scope _ _ hg) hsm.1 hsm.2 ha
        obtain ⟨r1, hi1, gr1⟩ := a1.grow i r hi
        obtain ⟨q1, q2, q3, q4⟩ := ih st1 st' a1.inv ⟨r1, hi1, by rw [gr1.hr]; exact hrh⟩ hall' h
        have hk1 : Keeps st st1 := fun sh hx => by rw [a2]; exact hx
        refine ⟨⟨q1.inv, a1.grow.trans q1.grow, ?_, hk1.trans q1.keeps⟩, q2.trans a1.hrs, fun s hs' => ?_, fun hex => q4 (hex.congr a2 a3)⟩
        · rw [List.flatMap_cons]
          have := q1.perm.trans (a1.perm.append_right _)
          simpa [recsS] using this
        · rcases List.mem_cons.1 hs' with rfl | hs'
          · exact (hk1.trans q1.keeps) _ (by rw [hg]; rfl)
          · exact q3 s hs'

/-! ### `addResource`, `addAll` -/

theorem inv_empty (P : Par) (K : Kd α β ι) (G : Groups ι) : Inv P K G ({} : St α) where
  res := by intro rh i; simp [AMap.get]
  ord := rfl
  scope := by intro sh l h; simp [AMap.get] at h
  met := by intro sh l h; simp [AMap.get] at h
  all := by intro r hr; simp at hr

theorem order_absent {P : Par} {K : Kd α β ι} {G : Groups ι} {st : St α} (h : Inv P K G st) {rh : Nat}
    (hn : st.resource.get rh = none) : rh ∉ st.out.map (hr P) ∧ st.order.get rh = none := by
  have h1 : rh ∉ st.out.map (hr P) := by
    intro hm
    obtain ⟨r, hr', e⟩ := List.mem_map.1 hm
    obtain ⟨i, hi⟩ := List.getElem?_of_mem hr'
    have := (h.res rh i).2 ⟨r, hi, e⟩
    rw [hn] at this; cases this
  refine ⟨h1, ?_⟩
  cases hg : st.order.get rh with
  | none => rfl
  | some v =>
    exfalso
    have hm := AMap.mem_of_get hg
    rw [h.ord] at hm
    obtain ⟨i, hi⟩ := List.getElem?_of_mem hm
    rw [List.getElem?_mapIdx, Option.map_eq_some_iff] at hi
    obtain ⟨r, hr', e⟩ := hi
    exact h1 (List.mem_map.2 ⟨r, List.mem_of_getElem? hr', (Prod.mk.inj e).1⟩)

theorem at_append {out : List (ResourceG α)} {rm r : ResourceG α} {s : ScopeG α} {l : Nat × Nat} (h : At (out ++ [rm]) l r s) :
    At out l r s ∨ (l.1 = out.length ∧ r = rm ∧ rm.scopes[l.2]? = some s) := by
  obtain ⟨h1, h2⟩ := h
  by_cases hl : l.1 < out.length
  · rw [List.getElem?_append_left hl] at h1
    exact .inl ⟨h1, h2⟩
  · rw [List.getElem?_append_right (by omega)] at h1
    have h3 := (List.getElem?_eq_some_iff.1 h1).1
    simp only [List.length_singleton] at h3
    have h4 : l.1 = out.length := by omega
    rw [h4] at h1
    simp only [Nat.sub_self, List.getElem?_cons_zero, Option.some.injEq] at h1
    subst h1
    exact .inr ⟨h4, rfl, h2⟩

theorem addResource_ok {P : Par} {K : Kd α β ι} {G : Groups ι} {lab : Nat → Nat → Nat → γ} {o : Ops α} (ho : OpsOk P K o)
    (hl : LabOk K G lab) {rm : ResourceG α} {st st' : St α} (hinv : Inv P K G st) (hall : AllR P G K rm)
    (h : addResource P o rm st = some st') :
    Done P K G lab st st' (recsR P K lab rm) ∧
    st'.out.map (hr P) = (if hr P rm ∈ st.out.map (hr P) then st.out.map (hr P) else st.out.map (hr P) ++ [hr P rm]) ∧
    (∀ s ∈ rm.scopes, (st'.scope.get (hs P rm s)).isSome) ∧
    ((∀ a b sh, G.GS a sh → G.GS b sh → a = b) → (rm.scopes.map (hs P rm)).Nodup → Ex P st → Ex P st') := by
  unfold addResource at h
  simp only at h
  change (match st.resource.get (hr P rm) with | none => _ | some i => _) = _ at h
  cases hg : st.resource.get (hr P rm) with
  | some i =>
    simp only [hg] at h
    have hi := (hinv.res _ _).1 hg
    obtain ⟨q1, q2, q3, q4⟩ := addScopes_ok ho hl rm.scopes st st' hinv hi hall h
    refine ⟨q1, ?_, q3, fun _ _ => q4⟩
    obtain ⟨r, hi, e⟩ := hi
    rw [if_pos (List.mem_map.2 ⟨r, List.mem_of_getElem? hi, e⟩)]; exact q2
  | none =>
    simp only [hg, Option.some.injEq] at h
    subst h
    change Done P K G lab st (regScopes P o (hr P rm) st.out.length 0 rm.scopes
      { st with out := st.out ++ [rm], resource := st.resource.set (hr P rm) st.out.length,
                order := st.order.set (hr P rm) (st.out.length + 1) }) _ ∧
      (regScopes P o (hr P rm) st.out.length 0 rm.scopes
      { st with out := st.out ++ [rm], resource := st.resource.set (hr P rm) st.out.length,
                order := st.order.set (hr P rm) (st.out.length + 1) }).out.map (hr P) = _ ∧ (∀ s ∈ rm.scopes,
      ((regScopes P o (hr P rm) st.out.length 0 rm.scopes
      { st with out := st.out ++ [rm], resource := st.resource.set (hr P rm) st.out.length,
                order := st.order.set (hr P rm) (st.out.length + 1) }).scope.get (hs P rm s)).isSome) ∧ (_ → _ → _ →
      Ex P (regScopes P o (hr P rm) st.out.length 0 rm.scopes
      { st with out := st.out ++ [rm], resource := st.resource.set (hr P rm) st.out.length,
                order := st.order.set (hr P rm) (st.out.length + 1) }))
    obtain ⟨ha, hb⟩ := order_absent hinv hg
    have hgrow : Grow K st.out (st.out ++ [rm]) := fun i r hi => ⟨r, by
      rw [List.getElem?_append_left (List.getElem?_eq_some_iff.1 hi).1]; exact hi, GrowR.refl K r⟩
    have hlast : (st.out ++ [rm])[st.out.length]? = some rm := by simp
    generalize hst1 : (St.mk (st.out ++ [rm]) (st.resource.set (hr P rm) st.out.length)
      (st.order.set (hr P rm) (st.out.length + 1)) st.scope st.metrics : St α) = st1
    have e1 : st1.out = st.out ++ [rm] := by rw [← hst1]
    have e2 : st1.resource = st.resource.set (hr P rm) st.out.length := by rw [← hst1]
    have e3 : st1.order = st.order.set (hr P rm) (st.out.length + 1) := by rw [← hst1]
    have e4 : st1.scope = st.scope := by rw [← hst1]
    have e5 : st1.metrics = st.metrics := by rw [← hst1]
    obtain ⟨f1, f2, f3⟩ := regScopes_fixed P o (hr P rm) st.out.length rm.scopes 0 st1
    have hsc1 : ∀ sh l, st1.scope.get sh = some l → ∃ r s, At st1.out l r s ∧ hs P r s = sh := by
      intro sh l hl'
      rw [e4] at hl'
      obtain ⟨r0, s0, ha0, e0⟩ := hinv.scope sh l hl'
      obtain ⟨r1, s1, ha1, gr, gs⟩ := hgrow.at ha0
      exact ⟨r1, s1, by rw [e1]; exact ha1, by rw [gs.hs gr]; exact e0⟩
    obtain ⟨g1, g2, g3, g4⟩ := regScopes_maps ho (i := st.out.length) (rm := rm) rm.scopes 0 st1 (by rw [e1]; exact hlast) rfl hsc1
      (by rw [e1, e5]; exact hinv.met.grow hgrow)
    refine ⟨⟨⟨?_, ?_, ?_, ?_, ?_⟩, ?_, ?_, ?_⟩, ?_, g4, fun hap hnd hex => ?_⟩
    · intro rh i
      rw [f1, f2, e1, e2, AMap.get_set]
      by_cases hk : hr P rm = rh
      · rw [if_pos hk]
        constructor
        · intro hi
          cases hi
          exact ⟨rm, hlast, hk⟩
        · rintro ⟨r, hi, e⟩
          by_cases hlt : i < st.out.length
          · exfalso
            rw [List.getElem?_append_left hlt] at hi
            exact ha (List.mem_map.2 ⟨r, List.mem_of_getElem? hi, by rw [e, hk]⟩)
          · have := (List.getElem?_eq_some_iff.1 hi).1
            simp only [List.length_append, List.length_singleton] at this
            congr 1; omega
      · rw [if_neg hk, hinv.res]
        constructor
        · rintro ⟨r, hi, e⟩
          exact ⟨r, by rw [List.getElem?_append_left (List.getElem?_eq_some_iff.1 hi).1]; exact hi, e⟩
        · rintro ⟨r, hi, e⟩
          by_cases hlt : i < st.out.length
          · rw [List.getElem?_append_left hlt] at hi
            exact ⟨r, hi, e⟩
          · exfalso
            have := (List.getElem?_eq_some_iff.1 hi).1
            simp only [List.length_append, List.length_singleton] at this
            have hi' : i = st.out.length := by omega
            rw [hi', hlast] at hi
            cases hi
            exact hk e
    · rw [f3, f1, e3, e1, AMap_set_absent hb, hinv.ord, List.mapIdx_append]; simp
    · rw [f1]; exact g1
    · rw [f1]; exact g2
    · rw [f1, e1]
      intro r hr'
      rcases List.mem_append.1 hr' with hr' | hr'
      · exact hinv.all r hr'
      · rw [List.mem_singleton.1 hr']; exact hall
    · rw [f1, e1]; exact hgrow
    · rw [f1, e1]; simp [recsL]
    · exact fun sh hx => g3 sh (by rw [e4]; exact hx)
    · rw [f1, e1, if_neg ha]; simp
    · intro l r s hat
      rw [f1, e1] at hat
      by_cases hm : hs P r s ∈ rm.scopes.map (hs P rm)
      · rcases at_append hat with h0 | ⟨h1, h2, h3⟩
        · exfalso
          obtain ⟨s', hs', e⟩ := List.mem_map.1 hm
          have g1 := (hinv.at_gs h0).1
          have g2 := (hall s' hs').1
          rw [e] at g2
          have := hap _ _ _ g1 g2
          exact ha (this ▸ List.mem_map.2 ⟨r, List.mem_of_getElem? h0.1, rfl⟩)
        · rw [h2, regScopes_get_self P o rm _ rm.scopes 0 st1 hnd l.2 s h3]
          congr 1
          ext <;> simp [h1]
      · rw [regScopes_get_other P o rm _ _ rm.scopes 0 st1 hm, e4]
        rcases at_append hat with h0 | ⟨h1, h2, h3⟩
        · exact hex l r s h0
        · exfalso
          rw [h2] at hm
          exact hm (List.mem_map.2 ⟨s, List.mem_of_getElem? h3, rfl⟩)

theorem eraseDups_snoc (l : List Nat) (x : Nat) :
    (l ++ [x]).eraseDups = if x ∈ l.eraseDups then l.eraseDups else l.eraseDups ++ [x] := by
  rw [List.eraseDups_append]
  by_cases h : x ∈ l
  · have : x ∈ l.eraseDups := List.mem_eraseDups.2 h
    rw [if_pos this]
    simp [List.removeAll, h]
  · have : x ∉ l.eraseDups := fun hx => h (List.mem_eraseDups.1 hx)
    rw [if_neg this]
    simp [List.removeAll, h, List.eraseDups_cons]

theorem nodup_eraseDups (l : List Nat) : l.eraseDups.Nodup := by
  induction l using List.reverseRecOn with
  | nil => simp
  | append_singleton l x ih =>
    rw [eraseDups_snoc]
    by_cases h : x ∈ l.eraseDups
    · rw [if_pos h]; exact ih
    · rw [if_neg h, List.nodup_append]
      exact ⟨ih, by simp, fun a ha b hb => by simp at hb; subst hb; rintro rfl; exact h ha⟩

theorem addAll_ok {P : Par} {K : Kd α β ι} {G : Groups ι} {lab : Nat → Nat → Nat → γ} {o : Ops α} (ho : OpsOk P K o)
    (hl : LabOk K G lab) : ∀ (ds done : List (ResourceG α)) (st st' : St α), Inv P K G st → AllL P G K ds →
    st.out.map (hr P) = (done.map (hr P)).eraseDups → addAll P o ds st = some st' →
    Done P K G lab st st' (recsL P K lab ds) ∧
    st'.out.map (hr P) = ((done ++ ds).map (hr P)).eraseDups ∧
    (∀ rm ∈ ds, ∀ s ∈ rm.scopes, (st'.scope.get (hs P rm s)).isSome) ∧
    ((∀ a b sh, G.GS a sh → G.GS b sh → a = b) → (∀ rm ∈ ds, (rm.scopes.map (hs P rm)).Nodup) → Ex P st → Ex P st') := by
  intro ds
  induction ds with
  | nil =>
    intro done st st' hinv _ hd h
    simp only [addAll, Option.some.injEq] at h
    subst h
    exact ⟨⟨hinv, Grow.refl K _, by simp [recsL], Keeps.refl _⟩, by simpa using hd, by simp, fun _ _ => id⟩
  | cons rm ds ih =>
    intro done st st' hinv hall hd h
    unfold addAll at h
    cases h1 : addResource P o rm st with
    | none => simp [h1] at h
    | some st1 =>
      simp only [h1] at h
      obtain ⟨a1, a2, a3, a4⟩ := addResource_ok ho hl hinv (hall rm (by simp)) h1
      have hd1 : st1.out.map (hr P) = ((done ++ [rm]).map (hr P)).eraseDups := by
        rw [a2, hd, List.map_append, List.map_singleton, eraseDups_snoc]
      obtain ⟨q1, q2, q3, q4⟩ := ih (done ++ [rm]) st1 st' a1.inv (fun r hr' => hall r (by simp [hr'])) hd1 h
      refine ⟨⟨q1.inv, a1.grow.trans q1.grow, ?_, a1.keeps.trans q1.keeps⟩, by simpa using q2, fun r hr' s hs' => ?_, fun hap hnd hex => ?_⟩
      · have := q1.perm.trans (a1.perm.append_right _)
        simpa [recsL] using this
      · rcases List.mem_cons.1 hr' with rfl | hr'
        · exact q1.keeps _ (a3 s hs')
        · exact q3 r hr' s hs'
      · exact q4 hap (fun r hr' => hnd r (by simp [hr'])) (a4 hap (hnd rm (by simp)) hex)

/-! ### The order of the result -/

theorem sorted_mapIdx (l : List α) (g : α → Nat) (n : Nat) :
    (l.mapIdx fun i r => (g r, i + n)).Pairwise fun a b => a.2 < b.2 := by
  induction l generalizing n with
  | nil => simp
  | cons x l ih =>
    rw [List.mapIdx_cons, List.pairwise_cons]
    have e : (l.mapIdx fun i r => (g r, i + 1 + n)) = l.mapIdx fun i r => (g r, i + (1 + n)) := by
      apply List.ext_getElem?; intro k
      simp [List.getElem?_mapIdx, Nat.add_assoc]
    refine ⟨fun b hb => ?_, ?_⟩
    · obtain ⟨i, hi⟩ := List.getElem?_of_mem hb
      rw [List.getElem?_mapIdx, Option.map_eq_some_iff] at hi
      obtain ⟨r, _, e⟩ := hi
      rw [← e]; show 0 + n < i + 1 + n; omega
    · show (l.mapIdx fun i r => (g r, i + 1 + n)).Pairwise _
      rw [e]; exact ih (1 + n)

theorem result_eq {P : Par} {K : Kd α β ι} {G : Groups ι} {st : St α} (h : Inv P K G st) {rs : AMap Nat Nat}
    (hp : rs.Perm st.order) : result st rs = st.out := by
  have hs1 := sorted_mapIdx st.out (hr P) 1
  rw [← h.ord] at hs1
  have hs2 : (rs.insertionSort fun a b => a.2 ≤ b.2).Pairwise fun a b => a.2 ≤ b.2 := by
    have : Std.Total (fun (a b : Nat × Nat) => a.2 ≤ b.2) := ⟨fun a b => Nat.le_total _ _⟩
    have : IsTrans (Nat × Nat) (fun (a b : Nat × Nat) => a.2 ≤ b.2) := ⟨fun a b c h1 h2 => Nat.le_trans h1 h2⟩
    exact List.pairwise_insertionSort _ rs
  have hpm : (rs.insertionSort fun a b => a.2 ≤ b.2).Perm st.order := (List.perm_insertionSort _ rs).trans hp
  have heq : (rs.insertionSort fun a b => a.2 ≤ b.2) = st.order := by
    refine List.Perm.eq_of_pairwise ?_ hs2 (hs1.imp (fun h => Nat.le_of_lt h)) hpm
    intro a b ha hb hab hba
    have hb' : b ∈ st.order := hb
    have ha' : a ∈ st.order := hpm.mem_iff.1 ha
    have hinj : ∀ x ∈ st.order, ∀ y ∈ st.order, x.2 = y.2 → x = y := by
      intro x hx y hy e
      have hnd : (st.order.map (·.2)).Nodup := by
        rw [List.nodup_iff_pairwise_ne, List.pairwise_map]
        exact hs1.imp (fun h => Nat.ne_of_lt h)
      exact List.inj_on_of_nodup_map hnd hx hy e
    exact hinj a ha' b hb' (Nat.le_antisymm hab hba)
  unfold result
  rw [heq, h.ord]
  apply List.ext_getElem?
  intro k
  have : (st.out.mapIdx fun i r => (hr P r, i + 1)).filterMap (fun e => (st.resource.get e.1).bind fun i => st.out[i]?) =
      st.out := by
    have hall : ∀ (l : List (ResourceG α)) (n : Nat), (∀ (i : Nat) (r : ResourceG α), l[i]? = some r → st.resource.get (hr P r) = some (i + n) ∧ st.out[i + n]? = some r) →
        (l.mapIdx fun i r => (hr P r, i + 1)).filterMap (fun e => (st.resource.get e.1).bind fun i => st.out[i]?) = l := by
      intro l
      induction l with
      | nil => intro n _; rfl
      | cons x l ih =>
        intro n hx
        obtain ⟨g1, g2⟩ := hx 0 x rfl
        have hgen : ∀ (f : Nat → Nat), (l.mapIdx fun i r => (hr P r, f i)).filterMap (fun e => (st.resource.get e.1).bind fun i => st.out[i]?) =
            (l.mapIdx fun i r => (hr P r, i + 1)).filterMap (fun e => (st.resource.get e.1).bind fun i => st.out[i]?) := by
          intro f
          have : ∀ (f : Nat → Nat), (l.mapIdx fun i r => (hr P r, f i)).filterMap (fun e => (st.resource.get e.1).bind fun i => st.out[i]?) =
              (l.map fun r => hr P r).filterMap (fun e => (st.resource.get e).bind fun i => st.out[i]?) := by
            intro f
            have e : (l.map fun r => hr P r) = (l.mapIdx fun i r => (hr P r, f i)).map (·.1) := by
              apply List.ext_getElem?; intro k
              simp [List.getElem?_mapIdx, Function.comp_def]
            rw [e, List.filterMap_map]; rfl
          rw [this, this]
        rw [List.mapIdx_cons, List.filterMap_cons]
        simp only [g1, Option.bind_some, g2]
        rw [hgen (fun i => i + 1 + 1), ih (n + 1)]
        intro i r hi
        have := hx (i + 1) r (by simpa using hi)
        have e : i + (n + 1) = i + 1 + n := by omega
        rw [e]; exact this
    exact hall st.out 0 fun i r hi => ⟨(h.res _ _).2 ⟨r, hi, rfl⟩, hi⟩
  rw [this]

/-! ### No panic -/

/-- Adding never panics. -/
def Safe (P : Par) (K : Kd α β ι) (G : Groups ι) (o : Ops α) : Prop :=
  ∀ (st : St α) (sh : Nat) (l : Nat × Nat) (xs : List α) (rh : Nat), Inv P K G st → (∃ r s, At st.out l r s ∧ hs P r s = sh) →
    G.GS rh sh → (∀ x ∈ xs, G.GI sh (K.ident x)) → ∃ st', o.add sh l xs st = some st'

theorem labUnit (K : Kd α β ι) (G : Groups ι) : LabOk K G (fun _ _ _ => ()) :=
  ⟨fun _ _ _ _ _ _ => rfl, fun _ _ _ _ _ _ _ _ _ _ _ => rfl⟩

theorem addScopes_some {P : Par} {K : Kd α β ι} {G : Groups ι} {o : Ops α} (ho : OpsOk P K o) (hsafe : Safe P K G o) {rh i : Nat} :
    ∀ (rest : List (ScopeG α)) (st : St α), Inv P K G st →
    (∃ r, st.out[i]? = some r ∧ hr P r = rh) → (∀ s ∈ rest, AllS G K rh (hashScope P rh s.schema s.scope) s) →
    ∃ st', addScopes P o rh i rest st = some st' := by
  intro rest
  induction rest with
  | nil => intro st _ _ _; exact ⟨st, rfl⟩
  | cons sm rest ih =>
    intro st hinv hi hall
    have hall' : ∀ s ∈ rest, AllS G K rh (hashScope P rh s.schema s.scope) s := fun s hs' => hall s (by simp [hs'])
    have key : ∃ st1, addScopes P o rh i [sm] st = some st1 ∧ addScopes P o rh i (sm :: rest) st = addScopes P o rh i rest st1 := by
      cases hg : st.scope.get (hashScope P rh sm.schema sm.scope) with
      | none => exact ⟨_, by simp only [addScopes, hg]; rfl, by simp only [addScopes, hg]⟩
      | some l =>
        obtain ⟨st1, h1⟩ := hsafe st _ l sm.items rh hinv (hinv.scope _ _ hg) (hall sm (by simp)).1 (hall sm (by simp)).2
        exact ⟨st1, by simp only [addScopes, hg, h1], by simp only [addScopes, hg, h1]⟩
    obtain ⟨st1, h1, h2⟩ := key
    obtain ⟨q1, _, _, _⟩ := addScopes_ok ho (labUnit K G) [sm] st st1 hinv hi (fun s hs' => hall s (by simp at hs'; simp [hs'])) h1
    obtain ⟨r, hi, e⟩ := hi
    obtain ⟨r1, hi1, gr⟩ := q1.grow i r hi
    rw [h2]
    exact ih st1 q1.inv ⟨r1, hi1, by rw [gr.hr]; exact e⟩ hall'

theorem addAll_some {P : Par} {K : Kd α β ι} {G : Groups ι} {o : Ops α} (ho : OpsOk P K o) (hsafe : Safe P K G o) :
    ∀ (ds : List (ResourceG α)) (st : St α), Inv P K G st → AllL P G K ds → ∃ st', addAll P o ds st = some st' := by
  intro ds
  induction ds with
  | nil => intro st _ _; exact ⟨st, rfl⟩
  | cons rm ds ih =>
    intro st hinv hall
    have key : ∃ st1, addResource P o rm st = some st1 := by
      cases hg : st.resource.get (hashResource P rm.schema rm.resource) with
      | none => exact ⟨_, by simp only [addResource, hg]; rfl⟩
      | some i =>
        obtain ⟨st1, h1⟩ := addScopes_some ho hsafe rm.scopes st hinv ((hinv.res _ _).1 hg) (hall rm (by simp))
        exact ⟨st1, by simp only [addResource, hg]; exact h1⟩
    obtain ⟨st1, h1⟩ := key
    obtain ⟨q1, _⟩ := addResource_ok ho (labUnit K G) hinv (hall rm (by simp)) h1
    obtain ⟨st', h2⟩ := ih st1 q1.inv (fun r hr' => hall r (by simp [hr']))
    exact ⟨st', by unfold addAll; simp only [h1]; exact h2⟩

theorem plain_safe (P : Par) (α : Type) (G : Groups Unit) : Safe P (Kd.plain α) G (plainOps α) := fun _ _ _ _ _ _ _ _ _ => ⟨_, rfl⟩

/-! ### The groups of the input -/

/-- The groups that occur in a list of resources. -/
def groups (P : Par) (K : Kd α β ι) (rs : List (ResourceG α)) : Groups ι where
  GS := fun rh sh => ∃ r ∈ rs, ∃ s ∈ r.scopes, hr P r = rh ∧ hs P r s = sh
  GI := fun sh x => ∃ r ∈ rs, ∃ s ∈ r.scopes, ∃ y ∈ s.items, hs P r s = sh ∧ K.ident y = x

theorem groups_all (P : Par) (K : Kd α β ι) (rs : List (ResourceG α)) : AllL P (groups P K rs) K rs :=
  fun r hr' s hs' => ⟨⟨r, hr', s, hs', rfl, rfl⟩, fun x hx => ⟨r, hr', s, hs', x, hx, rfl, rfl⟩⟩

theorem groups_apart {P : Par} {K : Kd α β ι} {rs : List (ResourceG α)} (h : ScopesApart P rs) (a b sh : Nat)
    (h1 : (groups P K rs).GS a sh) (h2 : (groups P K rs).GS b sh) : a = b := by
  obtain ⟨r, hr1, s, hs1, e1, e2⟩ := h1
  obtain ⟨r', hr2, s', hs2, e3, e4⟩ := h2
  rw [← e1, ← e3]
  exact h r hr1 r' hr2 s hs1 s' hs2 (by rw [e2, e4])

theorem metric_safe {P : Par} {rs : List (ResourceG Metric)} (h : SameKinds P rs) :
    Safe P (Kd.metric P) (groups P (Kd.metric P) rs) (metricOps P) := by
  intro st sh l xs rh hinv hat hgs hxs
  refine addMetrics_some hgs ?_ xs st hinv hat hxs
  rintro a b s1 s2 x y - ⟨r, hr1, s, hs1, m, hm, e1, e2⟩ - ⟨r', hr2, s', hs2, m', hm', e3, e4⟩ e
  have := h r hr1 r' hr2 s hs1 s' hs2 m hm m' hm' (by
    rw [e1, e3]
    have e5 : m.name = x.1 := by rw [← e2]; rfl
    have e6 : m'.name = y.1 := by rw [← e4]; rfl
    rw [e5, e6]; exact e)
  rw [← e2, ← e4]; exact this

/-! ### `collapseG` -/

theorem collapseG_eq (P : Par) (o : Ops α) (perm : AMap Nat Nat → AMap Nat Nat) (ds : List (List (ResourceG α))) :
    collapseG P o perm (ds.map some) = (addAll P o ds.flatten {}).map fun st => result st (perm st.order) := by
  have : ∀ l : List (List (ResourceG α)), (l.map some).mapM id = some l := by
    intro l
    induction l with
    | nil => rfl
    | cons x l ih => rw [List.map_cons, List.mapM_cons, ih]; rfl
  unfold collapseG
  rw [this]

/-- Everything about a merge that does not panic. -/
theorem collapseG_ok {P : Par} {K : Kd α β ι} {o : Ops α} (ho : OpsOk P K o) {perm : AMap Nat Nat → AMap Nat Nat}
    (hperm : ∀ m, (perm m).Perm m) {ds : List (List (ResourceG α))} {out : List (ResourceG α)}
    (h : collapseG P o perm (ds.map some) = some out) :
    (∀ {γ : Type} (lab : Nat → Nat → Nat → γ), LabOk K (groups P K ds.flatten) lab →
      (recsL P K lab out).Perm (recsL P K lab ds.flatten)) ∧
    out.map (hr P) = (ds.flatten.map (hr P)).eraseDups ∧
    AllL P (groups P K ds.flatten) K out ∧
    (∀ r ∈ ds.flatten, ∀ s ∈ r.scopes, ∃ r' ∈ out, ∃ s' ∈ r'.scopes, hs P r' s' = hs P r s) ∧
    (ScopesApart P ds.flatten → (∀ r ∈ ds.flatten, (r.scopes.map (hs P r)).Nodup) → ∀ r ∈ out, (r.scopes.map (hs P r)).Nodup) := by
  rw [collapseG_eq, Option.map_eq_some_iff] at h
  obtain ⟨st, h, e⟩ := h
  have hemp := inv_empty P K (groups P K ds.flatten) (α := α)
  obtain ⟨q1, q2, q3, q4⟩ := addAll_ok ho (labUnit K _) ds.flatten [] {} st hemp (groups_all P K _) rfl h
  have e' : out = st.out := by rw [← e]; exact result_eq q1.inv (hperm _)
  rw [e']
  refine ⟨fun lab hlab => ?_, by simpa using q2, q1.inv.all, fun r hr' s hs' => ?_, fun hap hnd r hr' => ?_⟩
  · obtain ⟨q1, _⟩ := addAll_ok ho hlab ds.flatten [] {} st hemp (groups_all P K _) rfl h
    simpa [recsL] using q1.perm
  · obtain ⟨l, hl⟩ := Option.isSome_iff_exists.1 (q3 r hr' s hs')
    obtain ⟨r0, s0, ha, e0⟩ := q1.inv.scope _ _ hl
    exact ⟨r0, List.mem_of_getElem? ha.1, s0, List.mem_of_getElem? ha.2, e0⟩
  · have hex := q4 (groups_apart hap) hnd (by intro l r s ha; simp [At] at ha)
    obtain ⟨i, hi⟩ := List.getElem?_of_mem hr'
    rw [List.nodup_iff_pairwise_ne, List.pairwise_iff_getElem]
    intro a b ha hb hab e
    simp only [List.length_map] at ha hb
    simp only [List.getElem_map] at e
    have h1 := hex (i, a) r _ ⟨hi, List.getElem?_eq_getElem ha⟩
    have h2 := hex (i, b) r _ ⟨hi, List.getElem?_eq_getElem hb⟩
    rw [e, h2] at h1
    simp at h1
    omega

end Verif.Dt
