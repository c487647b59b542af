import Verif.Props.Collapse
/-!
# Merging payloads: where everything in the result comes from
-/
namespace Verif.Dt
variable {α : Type}

/-- Everything in a payload has the given properties; those of scopes may depend on the hash of their resource. -/
def From (P : Par) (PR : Bytes → Option Resource → Prop) (PS : Nat → Bytes → Option InstrScope → Prop) (PI : α → Prop) (rs : List (ResourceG α)) : Prop :=
  ∀ r ∈ rs, PR r.schema r.resource ∧ ∀ s ∈ r.scopes, PS (hr P r) s.schema s.scope ∧ ∀ x ∈ s.items, PI x

theorem mem_modify' {l : List α} {i : Nat} {f : α → α} {y : α} (h : y ∈ l.modify i f) : y ∈ l ∨ ∃ x ∈ l, y = f x := by
  cases hx : l[i]? with
  | none =>
    have : l.modify i f = l := by
      apply List.ext_getElem?; intro j
      rw [getElem?_modify']
      by_cases hj : i = j
      · subst hj; rw [if_pos rfl, hx]; rfl
      · rw [if_neg hj]
    rw [this] at h; exact .inl h
  | some x =>
    rcases mem_modify hx h with h | h
    · exact .inr ⟨x, List.mem_of_getElem? hx, h⟩
    · exact .inl h

theorem map_modify' {δ : Type} (g : α → δ) (l : List α) (i : Nat) (f : α → α) (hg : ∀ x, g (f x) = g x) : (l.modify i f).map g = l.map g := by
  apply List.ext_getElem?; intro j
  rw [List.getElem?_map, getElem?_modify', List.getElem?_map]
  by_cases hj : i = j
  · rw [if_pos hj]; cases l[j]? <;> simp [hg]
  · rw [if_neg hj]

variable {P : Par} {PR : Bytes → Option Resource → Prop} {PS : Nat → Bytes → Option InstrScope → Prop} {PI : α → Prop}

theorem modScope_from {out : List (ResourceG α)} (h : From P PR PS PI out) (l : Nat × Nat) (f : ScopeG α → ScopeG α)
    (hf : ∀ s, (∀ x ∈ s.items, PI x) → (f s).schema = s.schema ∧ (f s).scope = s.scope ∧ ∀ x ∈ (f s).items, PI x) :
    From P PR PS PI (modScope out l f) ∧ (modScope out l f).map (hr P) = out.map (hr P) := by
  refine ⟨fun r hr' => ?_, map_modify' _ _ _ _ fun _ => rfl⟩
  rcases mem_modify' hr' with h0 | ⟨r, h0, rfl⟩
  · exact h r h0
  · refine ⟨(h r h0).1, fun s hs' => ?_⟩
    rcases mem_modify' hs' with h3 | ⟨s, h3, rfl⟩
    · exact (h r h0).2 s h3
    · obtain ⟨h1, h2⟩ := (h r h0).2 s h3
      obtain ⟨e1, e2, e3⟩ := hf s h2
      rw [e1, e2]
      exact ⟨h1, e3⟩

/-- Adding items keeps the properties. -/
def OpsFrom (P : Par) (o : Ops α) (PI : α → Prop) : Prop :=
  ∀ PR PS sh l xs (st st' : St α), (∀ x ∈ xs, PI x) → From P PR PS PI st.out → o.add sh l xs st = some st' →
    From P PR PS PI st'.out ∧ st'.out.map (hr P) = st.out.map (hr P) ∧ st'.resource = st.resource

theorem plain_from (P : Par) (PI : α → Prop) : OpsFrom P (plainOps α) PI := by
  intro PR PS sh l xs st st' hx h he
  simp only [plainOps, Option.some.injEq] at he
  subst he
  obtain ⟨h1, h2⟩ := modScope_from h l (fun s => { s with items := s.items ++ xs }) fun s hs => ⟨rfl, rfl, fun x hx' => by
    rcases List.mem_append.1 hx' with h | h
    · exact hs x h
    · exact hx x h⟩
  exact ⟨h1, h2, rfl⟩

theorem metric_from (P : Par) (PI : Metric → Prop) (hm : ∀ a b c, PI a → PI b → mergeMetric a b = some c → PI c) : OpsFrom P (metricOps P) PI := by
  intro PR PS sh l xs
  show ∀ (st st' : St Metric), _ → _ → addMetrics P sh l xs st = some st' → _
  induction xs with
  | nil => intro st st' _ h he; cases he; exact ⟨h, rfl, rfl⟩
  | cons m ms ih =>
    intro st st' hx h he
    have hm' := hx m (by simp)
    have hms : ∀ x ∈ ms, PI x := fun x hx' => hx x (by simp [hx'])
    rw [addMetrics] at he
    cases hg : st.metrics.get (hashMetric P sh m.name) with
    | none =>
      rw [hg] at he
      simp only at he
      obtain ⟨h1, h2⟩ := modScope_from h l (fun s => { s with items := s.items ++ [m] }) fun s hs => ⟨rfl, rfl, fun x hx' => by
        rcases List.mem_append.1 hx' with h | h
        · exact hs x h
        · rw [List.mem_singleton] at h; subst h; exact hm'⟩
      obtain ⟨q1, q2, q3⟩ := ih _ st' hms h1 he
      exact ⟨q1, q2.trans h2, q3⟩
    | some p =>
      rw [hg] at he
      simp only at he
      cases ho : getMetric st.out p with
      | none => rw [ho] at he; cases he
      | some om =>
        rw [ho] at he
        simp only at he
        have hom : PI om := by
          unfold getMetric at ho
          cases h1 : st.out[p.1]? with
          | none => rw [h1] at ho; cases ho
          | some r =>
            rw [h1] at ho; simp only at ho
            cases h2 : r.scopes[p.2.1]? with
            | none => rw [h2] at ho; cases ho
            | some s =>
              rw [h2] at ho; simp only at ho
              exact ((h r (List.mem_of_getElem? h1)).2 s (List.mem_of_getElem? h2)).2 om (List.mem_of_getElem? ho)
        cases hme : mergeMetric om m with
        | none => rw [hme] at he; cases he
        | some om' =>
          rw [hme] at he
          simp only at he
          have hom' := hm _ _ _ hom hm' hme
          obtain ⟨h1, h2⟩ := modScope_from h (p.1, p.2.1) (fun s => { s with items := s.items.set p.2.2 om' }) fun s hs => ⟨rfl, rfl, fun x hx' => by
            rcases List.mem_or_eq_of_mem_set hx' with h | h
            · exact hs x h
            · subst h; exact hom'⟩
          obtain ⟨q1, q2, q3⟩ := ih _ st' hms h1 he
          exact ⟨q1, q2.trans h2, q3⟩

/-- The map of resources points to the resources with the hashes. -/
def ResOk (P : Par) (st : St α) : Prop := ∀ rh i, st.resource.get rh = some i → (st.out.map (hr P))[i]? = some rh

theorem addScopes_from {o : Ops α} (ho : OpsFrom P o PI) {rh i : Nat} : ∀ (sms : List (ScopeG α)) (st st' : St α),
    (∀ s ∈ sms, PS rh s.schema s.scope ∧ ∀ x ∈ s.items, PI x) → From P PR PS PI st.out → (st.out.map (hr P))[i]? = some rh →
    addScopes P o rh i sms st = some st' →
    From P PR PS PI st'.out ∧ st'.out.map (hr P) = st.out.map (hr P) ∧ st'.resource = st.resource
  | [], st, st', _, h, _, he => by cases he; exact ⟨h, rfl, rfl⟩
  | sm :: rest, st, st', hs', h, hi, he => by
    have hsm := hs' sm (by simp)
    have hrest : ∀ s ∈ rest, PS rh s.schema s.scope ∧ ∀ x ∈ s.items, PI x := fun s hs => hs' s (by simp [hs])
    rw [addScopes] at he
    simp only at he
    cases hg : st.scope.get (hashScope P rh sm.schema sm.scope) with
    | none =>
      rw [hg] at he
      simp only at he
      have h2 : (st.out.modify i fun r => { r with scopes := r.scopes ++ [sm] }).map (hr P) = st.out.map (hr P) := map_modify' _ _ _ _ fun _ => rfl
      obtain ⟨q1, q2, q3⟩ := addScopes_from ho rest _ st' hrest (fun r hr' => by
        change r ∈ st.out.modify i _ at hr'
        cases hx : st.out[i]? with
        | none => rw [List.getElem?_map, hx] at hi; cases hi
        | some r0 =>
          rw [List.getElem?_map, hx] at hi
          rcases mem_modify hx hr' with rfl | hr'
          · have h0 := h r0 (List.mem_of_getElem? hx)
            refine ⟨h0.1, fun s hs => ?_⟩
            rcases List.mem_append.1 hs with hs | hs
            · exact h0.2 s hs
            · rw [List.mem_singleton] at hs; subst hs
              rw [show hr P { r0 with scopes := r0.scopes ++ [s] } = rh from Option.some.inj hi]
              exact hsm
          · exact h r hr') (by rw [show (_ : St α).out.map (hr P) = _ from h2]; exact hi) he
      exact ⟨q1, q2.trans h2, q3⟩
    | some l =>
      rw [hg] at he
      simp only at he
      cases ha : o.add (hashScope P rh sm.schema sm.scope) l sm.items st with
      | none => rw [ha] at he; cases he
      | some st1 =>
        rw [ha] at he
        simp only at he
        obtain ⟨p1, p2, p3⟩ := ho PR PS _ l sm.items st st1 hsm.2 h ha
        obtain ⟨q1, q2, q3⟩ := addScopes_from ho rest st1 st' hrest p1 (by rw [p2]; exact hi) he
        exact ⟨q1, q2.trans p2, q3.trans p3⟩

theorem addAll_from {o : Ops α} (ho : OpsFrom P o PI) : ∀ (rs : List (ResourceG α)) (st st' : St α), From P PR PS PI rs → From P PR PS PI st.out → ResOk P st →
    addAll P o rs st = some st' → From P PR PS PI st'.out
  | [], st, st', _, h, _, he => by cases he; exact h
  | rm :: rest, st, st', hrs, h, hok, he => by
    have hrm := hrs rm (by simp)
    have hrest : From P PR PS PI rest := fun r hr' => hrs r (by simp [hr'])
    rw [addAll] at he
    cases ha : addResource P o rm st with
    | none => rw [ha] at he; cases he
    | some st1 =>
      rw [ha] at he
      simp only at he
      refine addAll_from ho rest st1 st' hrest ?_ ?_ he
      · unfold addResource at ha
        simp only at ha
        cases hg : st.resource.get (hashResource P rm.schema rm.resource) with
        | none =>
          rw [hg] at ha
          simp only [Option.some.injEq] at ha
          subst ha
          obtain ⟨e1, e2, e3⟩ := regScopes_fixed P o (hashResource P rm.schema rm.resource) st.out.length rm.scopes 0
            { st with out := st.out ++ [rm], resource := st.resource.set (hashResource P rm.schema rm.resource) st.out.length, order := st.order.set (hashResource P rm.schema rm.resource) (st.out.length + 1) }
          rw [e1]
          intro r hr'
          rcases List.mem_append.1 hr' with hr' | hr'
          · exact h r hr'
          · rw [List.mem_singleton] at hr'; subst hr'; exact hrm
        | some i =>
          rw [hg] at ha
          exact (addScopes_from ho rm.scopes st st1 hrm.2 h (hok _ _ hg) ha).1
      · unfold addResource at ha
        simp only at ha
        cases hg : st.resource.get (hashResource P rm.schema rm.resource) with
        | none =>
          rw [hg] at ha
          simp only [Option.some.injEq] at ha
          subst ha
          obtain ⟨e1, e2, e3⟩ := regScopes_fixed P o (hashResource P rm.schema rm.resource) st.out.length rm.scopes 0
            { st with out := st.out ++ [rm], resource := st.resource.set (hashResource P rm.schema rm.resource) st.out.length, order := st.order.set (hashResource P rm.schema rm.resource) (st.out.length + 1) }
          intro rh i hi
          rw [e2] at hi
          rw [e1]
          simp only at hi ⊢
          rw [List.map_append]
          by_cases hh : rh = hashResource P rm.schema rm.resource
          · subst hh
            rw [AMap.get_set, if_pos rfl] at hi
            cases hi
            rw [List.getElem?_append_right (by simp)]
            simp [hr]
          · rw [AMap.get_set, if_neg (Ne.symm hh)] at hi
            have := hok _ _ hi
            rw [List.getElem?_append_left (List.getElem?_eq_some_iff.1 this).1]
            exact this
        | some i =>
          rw [hg] at ha
          obtain ⟨-, q2, q3⟩ := addScopes_from ho rm.scopes st st1 hrm.2 h (hok _ _ hg) ha
          intro rh j hj
          rw [q2]
          rw [q3] at hj
          exact hok _ _ hj

theorem collapseG_from {o : Ops α} {K : Kd α β ι} (hk : OpsOk P K o) (ho : OpsFrom P o PI) {perm : AMap Nat Nat → AMap Nat Nat}
    (hperm : ∀ m, (perm m).Perm m) {ds : List (List (ResourceG α))} {out : List (ResourceG α)} (hds : From P PR PS PI ds.flatten)
    (h : collapseG P o perm (ds.map some) = some out) : From P PR PS PI out := by
  rw [collapseG_eq, Option.map_eq_some_iff] at h
  obtain ⟨st, h, e⟩ := h
  have hemp := inv_empty P K (groups P K ds.flatten) (α := α)
  obtain ⟨q1, -⟩ := addAll_ok hk (labUnit K _) ds.flatten [] {} st hemp (groups_all P K _) rfl h
  have e' : out = st.out := by rw [← e]; exact result_eq q1.inv (hperm _)
  rw [e']
  exact addAll_from ho ds.flatten {} st hds (fun r hr' => by cases hr') (fun rh i hi => by cases hi) h

end Verif.Dt
