import Verif.Lemmas.Collapse
/-!
# Merging payloads: the loops keep the invariant
-/
namespace Verif.Dt
variable {α β γ ι : Type}

theorem AMap_set_absent {κ ν : Type} [DecidableEq κ] {m : AMap κ ν} {k : κ} {v : ν} (h : m.get k = none) :
    m.set k v = m ++ [(k, v)] := by
  induction m with
  | nil => rfl
  | cons e m ih =>
    obtain ⟨a, b⟩ := e
    unfold AMap.get at h
    unfold AMap.set
    by_cases hk : a = k
    · simp [hk] at h
    · simp only [hk, if_false] at h ⊢
      rw [ih h]; rfl

theorem set_eq_modify' {l : List α} {i : Nat} {x : α} : l.set i x = l.modify i (fun _ => x) := by
  apply List.ext_getElem?
  intro n
  rw [List.getElem?_set, getElem?_modify']
  by_cases h : i = n
  · subst h
    by_cases hn : i < l.length
    · simp [hn]
    · simp [hn]
  · simp [h]

theorem Inv.at_gs {P : Par} {K : Kd α β ι} {G : Groups ι} {st : St α} (h : Inv P K G st) {l : Nat × Nat} {r : ResourceG α}
    {s : ScopeG α} (ha : At st.out l r s) : AllS G K (hr P r) (hs P r s) s :=
  h.all r (List.mem_of_getElem? ha.1) s (List.mem_of_getElem? ha.2)

theorem Added.refl {P : Par} {K : Kd α β ι} {G : Groups ι} {lab : Nat → Nat → Nat → γ} {st : St α} (h : Inv P K G st) :
    Added P K G lab st st [] := ⟨h, Grow.refl K _, by simp, rfl⟩

theorem Added.trans {P : Par} {K : Kd α β ι} {G : Groups ι} {lab : Nat → Nat → Nat → γ} {a b c : St α} {e f : List (γ × β)}
    (h : Added P K G lab a b e) (g : Added P K G lab b c f) : Added P K G lab a c (e ++ f) :=
  ⟨g.inv, h.grow.trans g.grow, by
    have := g.perm.trans (h.perm.append_right f)
    simpa using this, g.hrs.trans h.hrs⟩

/-! ### Log records and spans -/

/-- Records are their own points; they are not looked up by name. -/
def Kd.plain (α : Type) : Kd α α Unit := ⟨fun _ => (), fun sh _ => sh, fun x => [x]⟩

theorem items_append_grow {K : Kd α β ι} (s : ScopeG α) (xs : List α) : GrowS K s { s with items := s.items ++ xs } :=
  ⟨rfl, rfl, fun k x hk => ⟨x, by
    show (s.items ++ xs)[k]? = _
    rw [List.getElem?_append_left (List.getElem?_eq_some_iff.1 hk).1]; exact hk, rfl⟩⟩

theorem plain_ok (P : Par) (α : Type) : OpsOk P (Kd.plain α) (plainOps α) where
  reg := fun h _ _ => h
  add := by
    intro γ G lab st st' sh l xs rh hl hinv hat hgs hxs heq
    obtain ⟨r, s, ha, e⟩ := hat
    simp only [plainOps, Option.some.injEq] at heq
    subst heq
    have hg := hinv.at_gs ha
    obtain ⟨h1, h2, h3, h4, h5⟩ := modScope_spec (P := P) (G := G) (lab := lab) ha (fun s => { s with items := s.items ++ xs })
      (items_append_grow (K := Kd.plain α) s xs) (xs.flatMap (recsI (Kd.plain α) lab rh sh)) (by
        simp only [recsS, List.flatMap_append]
        rw [e]
        have : recsI (Kd.plain α) lab (hr P r) sh = recsI (Kd.plain α) lab rh sh := by
          funext x
          simp only [recsI]
          rw [hl.scope (hr P r) rh sh _ (e ▸ hg.1) hgs]
        rw [this])
    have hrs : (modScope st.out l fun s => { s with items := s.items ++ xs }).map (hr P) = st.out.map (hr P) := by
      rw [shape_hr, h3, ← shape_hr]
    refine ⟨⟨hinv.of_grow h1 hrs rfl rfl rfl (hinv.met.grow h1) (h5 hinv.all ⟨hg.1, ?_⟩), h1, h2, hrs⟩, rfl, h3⟩
    intro x hx
    rcases List.mem_append.1 hx with hx | hx
    · exact hg.2 x hx
    · rw [e]; exact hxs x hx

/-! ### Metrics -/

/-- Metrics are looked up by name; merging needs equal kinds. -/
def Kd.metric (P : Par) : Kd Metric (MKind × DataPoint) (Bytes × Option MKind) := ⟨fun m => (m.name, Metric.kind m), fun sh x => hashMetric P sh x.1, Metric.points⟩

theorem mergeMetric_spec (P : Par) {om m om' : Metric} (h : mergeMetric om m = some om') :
    (Kd.metric P).ident om' = (Kd.metric P).ident om ∧ Metric.points om' = Metric.points om ++ Metric.points m := by
  unfold mergeMetric at h
  cases hm : m.data with
  | none =>
    simp only [hm, Option.some.injEq] at h
    subst h
    exact ⟨rfl, by simp [Metric.points, hm]⟩
  | some d =>
    simp only [hm] at h
    cases ho : om.data with
    | none => simp [ho] at h
    | some od =>
      simp only [ho] at h
      by_cases hk : od.kind = d.kind
      · simp only [hk, if_true, Option.some.injEq] at h
        subst h
        refine ⟨by simp [Kd.metric, Metric.kind, ho, hk], ?_⟩
        simp [Metric.points, hm, ho, hk]
      · simp [hk] at h

theorem mergeMetric_some {om m : Metric} (h : Metric.kind om = Metric.kind m) : ∃ om', mergeMetric om m = some om' := by
  unfold mergeMetric
  unfold Metric.kind at h
  cases hm : m.data with
  | none => exact ⟨_, rfl⟩
  | some d =>
    cases ho : om.data with
    | none => simp [hm, ho] at h
    | some od =>
      simp only [hm, ho, Option.map_some, Option.some.injEq] at h
      exact ⟨_, by simp only [h, if_true]; rfl⟩

theorem regMetrics_ok {P : Par} {out : List (ResourceG Metric)} {l : Nat × Nat} {r : ResourceG Metric} {s : ScopeG Metric}
    {sh : Nat} (ha : At out l r s) (he : hs P r s = sh) : ∀ (xs : List Metric) (k : Nat) (m : AMap Nat (Nat × Nat × Nat)),
    MOk P (Kd.metric P) out m → s.items.drop k = xs → MOk P (Kd.metric P) out (regMetrics P sh l k xs m) := by
  intro xs
  induction xs with
  | nil => intro k m h _; exact h
  | cons x xs ih =>
    intro k m h hd
    unfold regMetrics
    have hk : s.items[k]? = some x := by
      have := congrArg (fun l => l[0]?) hd
      simpa using this
    refine ih (k + 1) _ ?_ ?_
    · intro mh p hp
      rw [AMap.get_set] at hp
      by_cases hm : hashMetric P sh x.name = mh
      · simp only [hm, if_true, Option.some.injEq] at hp
        subst hp
        exact ⟨r, s, x, ha, hk, by rw [he]; exact hm⟩
      · simp only [hm, if_false] at hp
        exact h mh p hp
    · have := congrArg (fun l => l.drop 1) hd
      simpa [List.drop_drop, Nat.add_comm] using this

theorem getMetric_of_at {out : List (ResourceG Metric)} {p : Nat × Nat × Nat} {r : ResourceG Metric} {s : ScopeG Metric} {x : Metric}
    (ha : At out (p.1, p.2.1) r s) (hx : s.items[p.2.2]? = some x) : getMetric out p = some x := by
  obtain ⟨h1, h2⟩ := ha
  simp only at h1 h2
  unfold getMetric
  rw [h1]; simp only [h2]; exact hx

theorem addMetrics_ok {P : Par} {G : Groups (Bytes × Option MKind)} {lab : Nat → Nat → Nat → γ} {sh : Nat} {l : Nat × Nat} {rh : Nat}
    (hl : LabOk (Kd.metric P) G lab) (hgs : G.GS rh sh) : ∀ (xs : List Metric) (st st' : St Metric),
    Inv P (Kd.metric P) G st → (∃ r s, At st.out l r s ∧ hs P r s = sh) → (∀ x ∈ xs, G.GI sh ((Kd.metric P).ident x)) →
    addMetrics P sh l xs st = some st' →
    Added P (Kd.metric P) G lab st st' (xs.flatMap (recsI (Kd.metric P) lab rh sh)) ∧ st'.scope = st.scope ∧
      shape P st'.out = shape P st.out := by
  intro xs
  induction xs with
  | nil =>
    intro st st' hinv _ _ h
    simp only [addMetrics, Option.some.injEq] at h
    subst h
    exact ⟨Added.refl hinv, rfl, rfl⟩
  | cons m ms ih =>
    intro st st' hinv hat hxs h
    obtain ⟨r, s, ha, e⟩ := hat
    have hg := hinv.at_gs ha
    unfold addMetrics at h
    cases hm : st.metrics.get (hashMetric P sh m.name) with
    | none =>
      simp only [hm] at h
      obtain ⟨h1, h2, h3, h4, h5⟩ := modScope_spec (P := P) (G := G) (lab := lab) ha (fun s => { s with items := s.items ++ [m] })
        (items_append_grow (K := (Kd.metric P)) s [m]) (recsI (Kd.metric P) lab rh sh m) (by
          simp only [recsS, List.flatMap_append, List.flatMap_cons, List.flatMap_nil, List.append_nil]
          rw [e]
          have : recsI (Kd.metric P) lab (hr P r) sh m = recsI (Kd.metric P) lab rh sh m := by
            simp only [recsI]
            rw [hl.scope (hr P r) rh sh _ (e ▸ hg.1) hgs]
          rw [this])
      have hrs : (modScope st.out l fun s => { s with items := s.items ++ [m] }).map (hr P) = st.out.map (hr P) := by
        rw [shape_hr, h3, ← shape_hr]
      have hfs : hs P { r with scopes := r.scopes.modify l.2 fun s => { s with items := s.items ++ [m] } }
          { s with items := s.items ++ [m] } = sh := e
      simp only [ha.1, ha.2, Option.bind_some] at h
      have hadd : Added P (Kd.metric P) G lab st
          { st with out := modScope st.out l fun s => { s with items := s.items ++ [m] },
                    metrics := st.metrics.set (hashMetric P sh m.name) (l.1, l.2, s.items.length) }
          (recsI (Kd.metric P) lab rh sh m) := by
        refine ⟨hinv.of_grow h1 hrs rfl rfl rfl ?_ (h5 hinv.all ⟨hg.1, ?_⟩), h1, h2, hrs⟩
        · intro mh p hp
          simp only at hp
          rw [AMap.get_set] at hp
          by_cases hmh : hashMetric P sh m.name = mh
          · simp only [hmh, if_true, Option.some.injEq] at hp
            subst hp
            exact ⟨_, _, m, h4, by simp, by rw [hfs]; exact hmh⟩
          · simp only [hmh, if_false] at hp
            exact hinv.met.grow h1 mh p hp
        · intro x hx
          rcases List.mem_append.1 hx with hx | hx
          · exact hg.2 x hx
          · rw [e, List.mem_singleton.1 hx]; exact hxs m (by simp)
      obtain ⟨q1, q2, q3⟩ := ih _ st' hadd.inv ⟨_, _, h4, hfs⟩ (fun x hx => hxs x (by simp [hx])) h
      exact ⟨by rw [List.flatMap_cons]; exact hadd.trans q1, q2, q3.trans h3⟩
    | some p =>
      simp only [hm] at h
      obtain ⟨r', s', x, ha', hx, hh⟩ := hinv.met _ _ hm
      rw [getMetric_of_at ha' hx] at h
      simp only at h
      cases hmm : mergeMetric x m with
      | none => simp [hmm] at h
      | some om' =>
        simp only [hmm] at h
        obtain ⟨hid, hpts⟩ := mergeMetric_spec P hmm
        have hg' := hinv.at_gs ha'
        have hxm := List.mem_of_getElem? hx
        have hlab : lab (hr P r') (hs P r' s') ((Kd.metric P).mh (hs P r' s') ((Kd.metric P).ident x)) =
            lab rh sh ((Kd.metric P).mh sh ((Kd.metric P).ident m)) :=
          hl.item _ _ ((Kd.metric P).ident x) rh sh ((Kd.metric P).ident m) hg'.1 (hg'.2 x hxm) hgs (hxs m (by simp)) hh
        have hgr : GrowS (Kd.metric P) s' { s' with items := s'.items.set p.2.2 om' } := by
          refine ⟨rfl, rfl, fun k y hy => ?_⟩
          show ∃ x', (s'.items.set p.2.2 om')[k]? = some x' ∧ _
          rw [set_eq_modify', getElem?_modify']
          by_cases hk : p.2.2 = k
          · subst hk
            rw [hx] at hy; cases hy
            exact ⟨om', by rw [if_pos rfl, hx]; rfl, hid⟩
          · exact ⟨y, by rw [if_neg hk]; exact hy, rfl⟩
        obtain ⟨h1, h2, h3, h4, h5⟩ := modScope_spec (P := P) (G := G) (lab := lab) ha'
          (fun s => { s with items := s.items.set p.2.2 om' }) hgr (recsI (Kd.metric P) lab rh sh m) (by
            show (List.flatMap _ (s'.items.set p.2.2 om')).Perm _
            rw [set_eq_modify']
            refine perm_flatMap_modify hx _ _ _ ?_
            simp only [recsI]
            show (((Metric.points om').map _)).Perm _
            rw [hpts, List.map_append, hid]
            show List.Perm (List.map _ (Metric.points x) ++ List.map _ (Metric.points m)) (List.map _ (Metric.points x) ++ List.map _ (Metric.points m))
            rw [hlab])
        have hrs : (modScope st.out (p.1, p.2.1) fun s => { s with items := s.items.set p.2.2 om' }).map (hr P) = st.out.map (hr P) := by
          rw [shape_hr, h3, ← shape_hr]
        have hadd : Added P (Kd.metric P) G lab st
            { st with out := modScope st.out (p.1, p.2.1) fun s => { s with items := s.items.set p.2.2 om' } }
            (recsI (Kd.metric P) lab rh sh m) := by
          refine ⟨hinv.of_grow h1 hrs rfl rfl rfl (hinv.met.grow h1) (h5 hinv.all ⟨hg'.1, ?_⟩), h1, h2, hrs⟩
          intro y hy
          simp only [set_eq_modify'] at hy
          rcases mem_modify hx hy with rfl | hy
          · rw [hid]; exact hg'.2 x hxm
          · exact hg'.2 y hy
        obtain ⟨r2, s2, ha2, gr, gs⟩ := h1.at ha
        obtain ⟨q1, q2, q3⟩ := ih _ st' hadd.inv ⟨r2, s2, ha2, by rw [gs.hs gr]; exact e⟩ (fun x hx => hxs x (by simp [hx])) h
        exact ⟨by rw [List.flatMap_cons]; exact hadd.trans q1, q2, q3.trans h3⟩

theorem metric_ok (P : Par) : OpsOk P (Kd.metric P) (metricOps P) where
  reg := fun h ha he => regMetrics_ok ha he _ 0 _ h rfl
  add := fun hl hinv hat hgs hxs h => addMetrics_ok hl hgs _ _ _ hinv hat hxs h

/-- Metrics of the same kind merge without a panic. -/
theorem addMetrics_some {P : Par} {G : Groups (Bytes × Option MKind)} {sh : Nat} {l : Nat × Nat} {rh : Nat} (hgs : G.GS rh sh)
    (hk : ∀ a b sh sh' x y, G.GS a sh → G.GI sh x → G.GS b sh' → G.GI sh' y →
      hashMetric P sh x.1 = hashMetric P sh' y.1 → x.2 = y.2) : ∀ (xs : List Metric) (st : St Metric),
    Inv P (Kd.metric P) G st → (∃ r s, At st.out l r s ∧ hs P r s = sh) → (∀ x ∈ xs, G.GI sh ((Kd.metric P).ident x)) →
    ∃ st', addMetrics P sh l xs st = some st' := by
  intro xs
  induction xs with
  | nil => intro st _ _ _; exact ⟨st, rfl⟩
  | cons m ms ih =>
    intro st hinv hat hxs
    -- the state after the first metric again satisfies the invariant
    have hl : LabOk (Kd.metric P) G (fun _ _ _ => ()) := ⟨fun _ _ _ _ _ _ => rfl, fun _ _ _ _ _ _ _ _ _ _ _ => rfl⟩
    have step : ∀ st1, addMetrics P sh l [m] st = some st1 → ∃ st', addMetrics P sh l (m :: ms) st = some st' := by
      intro st1 h1
      have hx : ∀ x ∈ [m], G.GI sh ((Kd.metric P).ident x) := fun x hx => hxs x (by simp at hx; simp [hx])
      obtain ⟨a, _, _⟩ := addMetrics_ok hl hgs [m] st st1 hinv hat hx h1
      obtain ⟨r, s, ha, e⟩ := hat
      obtain ⟨r2, s2, ha2, gr, gs⟩ := a.grow.at ha
      obtain ⟨st', hst'⟩ := ih st1 a.inv ⟨r2, s2, ha2, by rw [gs.hs gr]; exact e⟩ (fun x hx => hxs x (by simp [hx]))
      refine ⟨st', ?_⟩
      unfold addMetrics at h1 ⊢
      cases hm : st.metrics.get (hashMetric P sh m.name) with
      | none =>
        simp only [hm, addMetrics, Option.some.injEq] at h1 ⊢
        rw [h1]; exact hst'
      | some p =>
        simp only [hm] at h1 ⊢
        cases hgm : getMetric st.out p with
        | none => simp [hgm] at h1
        | some om =>
          simp only [hgm] at h1 ⊢
          cases hmm : mergeMetric om m with
          | none => simp [hmm] at h1
          | some om' =>
            simp only [hmm, addMetrics, Option.some.injEq] at h1 ⊢
            rw [h1]; exact hst'
    cases hm : st.metrics.get (hashMetric P sh m.name) with
    | none => exact step _ (by unfold addMetrics; simp only [hm]; rfl)
    | some p =>
      obtain ⟨r', s', x, ha', hx, hh⟩ := hinv.met _ _ hm
      have hg' := hinv.at_gs ha'
      have hxm := List.mem_of_getElem? hx
      obtain ⟨om', hom⟩ := mergeMetric_some (om := x) (m := m)
        (hk _ rh _ sh _ _ hg'.1 (hg'.2 x hxm) hgs (hxs m (by simp)) hh)
      exact step _ (by unfold addMetrics; simp only [hm, getMetric_of_at ha' hx, hom]; rfl)

end Verif.Dt
