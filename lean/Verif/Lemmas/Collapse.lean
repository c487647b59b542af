import Verif.Lemmas.Bitmap
import Verif.Spec.Collapse
import Mathlib.Tactic.Tauto
/-!
# Facts about merging payloads
-/
namespace Verif.Dt
variable {α β γ ι : Type}

/-- How items are identified, hashed, and split into records. -/
structure Kd (α β ι : Type) where
  ident : α → ι
  mh : Nat → ι → Nat
  pts : α → List β

/-- Everything an item, scope or resource contributes, labelled. -/
def recsI (K : Kd α β ι) (lab : Nat → Nat → Nat → γ) (rh sh : Nat) (x : α) : List (γ × β) :=
  (K.pts x).map fun b => (lab rh sh (K.mh sh (K.ident x)), b)
def recsS (K : Kd α β ι) (lab : Nat → Nat → Nat → γ) (rh sh : Nat) (s : ScopeG α) : List (γ × β) :=
  s.items.flatMap (recsI K lab rh sh)
def recsR (P : Par) (K : Kd α β ι) (lab : Nat → Nat → Nat → γ) (r : ResourceG α) : List (γ × β) :=
  r.scopes.flatMap fun s => recsS K lab (hr P r) (hs P r s) s
def recsL (P : Par) (K : Kd α β ι) (lab : Nat → Nat → Nat → γ) (rs : List (ResourceG α)) : List (γ × β) :=
  rs.flatMap (recsR P K lab)

/-- Groups of the input. -/
structure Groups (ι : Type) where
  GS : Nat → Nat → Prop
  GI : Nat → ι → Prop

def AllS (G : Groups ι) (K : Kd α β ι) (rh sh : Nat) (s : ScopeG α) : Prop := G.GS rh sh ∧ ∀ x ∈ s.items, G.GI sh (K.ident x)
def AllR (P : Par) (G : Groups ι) (K : Kd α β ι) (r : ResourceG α) : Prop := ∀ s ∈ r.scopes, AllS G K (hr P r) (hs P r s) s
def AllL (P : Par) (G : Groups ι) (K : Kd α β ι) (rs : List (ResourceG α)) : Prop := ∀ r ∈ rs, AllR P G K r

/-- Position `l` holds scope `s` of resource `r`. -/
def At (out : List (ResourceG α)) (l : Nat × Nat) (r : ResourceG α) (s : ScopeG α) : Prop :=
  out[l.1]? = some r ∧ r.scopes[l.2]? = some s

/-- The registered items keep their positions and identities. -/
def GrowS (K : Kd α β ι) (s s' : ScopeG α) : Prop :=
  s'.schema = s.schema ∧ s'.scope = s.scope ∧ ∀ (k : Nat) (x : α), s.items[k]? = some x → ∃ x', s'.items[k]? = some x' ∧ K.ident x' = K.ident x
def GrowR (K : Kd α β ι) (r r' : ResourceG α) : Prop :=
  r'.schema = r.schema ∧ r'.resource = r.resource ∧ ∀ (j : Nat) (s : ScopeG α), r.scopes[j]? = some s → ∃ s', r'.scopes[j]? = some s' ∧ GrowS K s s'
def Grow (K : Kd α β ι) (out out' : List (ResourceG α)) : Prop :=
  ∀ (i : Nat) (r : ResourceG α), out[i]? = some r → ∃ r', out'[i]? = some r' ∧ GrowR K r r'

theorem GrowS.refl (K : Kd α β ι) (s : ScopeG α) : GrowS K s s := ⟨rfl, rfl, fun _ x h => ⟨x, h, rfl⟩⟩
theorem GrowS.trans {K : Kd α β ι} {a b c : ScopeG α} (h : GrowS K a b) (g : GrowS K b c) : GrowS K a c :=
  ⟨g.1.trans h.1, g.2.1.trans h.2.1, fun k x hx => by
    obtain ⟨x', hx', e⟩ := h.2.2 k x hx
    obtain ⟨x'', hx'', e'⟩ := g.2.2 k x' hx'
    exact ⟨x'', hx'', e'.trans e⟩⟩
theorem GrowR.refl (K : Kd α β ι) (r : ResourceG α) : GrowR K r r := ⟨rfl, rfl, fun _ s h => ⟨s, h, GrowS.refl K s⟩⟩
theorem GrowR.trans {K : Kd α β ι} {a b c : ResourceG α} (h : GrowR K a b) (g : GrowR K b c) : GrowR K a c :=
  ⟨g.1.trans h.1, g.2.1.trans h.2.1, fun k x hx => by
    obtain ⟨x', hx', e⟩ := h.2.2 k x hx
    obtain ⟨x'', hx'', e'⟩ := g.2.2 k x' hx'
    exact ⟨x'', hx'', e.trans e'⟩⟩
theorem Grow.refl (K : Kd α β ι) (o : List (ResourceG α)) : Grow K o o := fun _ r h => ⟨r, h, GrowR.refl K r⟩
theorem Grow.trans {K : Kd α β ι} {a b c : List (ResourceG α)} (h : Grow K a b) (g : Grow K b c) : Grow K a c :=
  fun k x hx => by
    obtain ⟨x', hx', e⟩ := h k x hx
    obtain ⟨x'', hx'', e'⟩ := g k x' hx'
    exact ⟨x'', hx'', e.trans e'⟩

theorem GrowR.hr {K : Kd α β ι} {P : Par} {r r' : ResourceG α} (h : GrowR K r r') : hr P r' = hr P r := by
  unfold Dt.hr; rw [h.1, h.2.1]
theorem GrowS.hs {K : Kd α β ι} {P : Par} {r r' : ResourceG α} {s s' : ScopeG α} (h : GrowR K r r') (g : GrowS K s s') :
    hs P r' s' = hs P r s := by
  unfold Dt.hs; rw [h.hr, g.1, g.2.1]

theorem Grow.at {K : Kd α β ι} {o o' : List (ResourceG α)} (h : Grow K o o') {l : Nat × Nat} {r : ResourceG α} {s : ScopeG α}
    (ha : At o l r s) : ∃ r' s', At o' l r' s' ∧ GrowR K r r' ∧ GrowS K s s' := by
  obtain ⟨r', h1, h2⟩ := h _ _ ha.1
  obtain ⟨s', h3, h4⟩ := h2.2.2 _ _ ha.2
  exact ⟨r', s', ⟨h1, h3⟩, h2, h4⟩

/-! ### Modifying one element of a list -/

theorem getElem?_modify' {l : List α} {i : Nat} {f : α → α} (j : Nat) :
    (l.modify i f)[j]? = if i = j then l[j]?.map f else l[j]? := by
  rw [List.getElem?_modify]
  by_cases h : i = j
  · simp [h]
  · simp [h]

theorem modify_split {l : List α} {i : Nat} {x : α} (h : l[i]? = some x) (f : α → α) :
    ∃ a b, l = a ++ x :: b ∧ l.modify i f = a ++ f x :: b ∧ a.length = i := by
  have hi := (List.getElem?_eq_some_iff.1 h).1
  have hx := (List.getElem?_eq_some_iff.1 h).2
  refine ⟨l.take i, l.drop (i + 1), ?_, ?_, by simp; omega⟩
  · rw [← hx, List.getElem_cons_drop, List.take_append_drop]
  · rw [List.modify_eq_take_cons_drop hi, hx]

theorem perm_flatMap_modify {δ : Type} {l : List α} {i : Nat} {x : α} (h : l[i]? = some x) (f : α → α) (g : α → List δ)
    (e : List δ) (hg : (g (f x)).Perm (g x ++ e)) : ((l.modify i f).flatMap g).Perm (l.flatMap g ++ e) := by
  obtain ⟨a, b, h1, h2, _⟩ := modify_split h f
  rw [h2, h1]
  simp only [List.flatMap_append, List.flatMap_cons]
  have := (hg.append_left (a.flatMap g)).append_right (b.flatMap g)
  refine List.Perm.trans (by simp) (this.trans ?_)
  simp only [List.append_assoc]
  refine List.Perm.append_left _ (List.Perm.append_left _ List.perm_append_comm)

theorem map_modify_eq {δ : Type} {l : List α} {i : Nat} {x : α} (h : l[i]? = some x) (f : α → α) (g : α → δ)
    (hg : g (f x) = g x) : (l.modify i f).map g = l.map g := by
  obtain ⟨a, b, h1, h2, _⟩ := modify_split h f
  rw [h2, h1]; simp [hg]

theorem mem_modify {l : List α} {i : Nat} {x y : α} (h : l[i]? = some x) {f : α → α} (hy : y ∈ l.modify i f) :
    y = f x ∨ y ∈ l := by
  obtain ⟨a, b, h1, h2, _⟩ := modify_split h f
  rw [h2] at hy; rw [h1]
  simp at hy ⊢; tauto

/-! ### One scope changes -/

/-- The hashes of the resources and their scopes. -/
def shape (P : Par) (out : List (ResourceG α)) : List (Nat × List Nat) := out.map fun r => (hr P r, r.scopes.map (hs P r))

theorem shape_hr (P : Par) (out : List (ResourceG α)) : out.map (hr P) = (shape P out).map (·.1) := by
  simp [shape, Function.comp_def]

/-- Everything about changing the scope at a position. -/
theorem modScope_spec {P : Par} {K : Kd α β ι} {G : Groups ι} {lab : Nat → Nat → Nat → γ} {out : List (ResourceG α)}
    {l : Nat × Nat} {r : ResourceG α} {s : ScopeG α} (ha : At out l r s) (f : ScopeG α → ScopeG α) (hg : GrowS K s (f s))
    (e : List (γ × β)) (hp : (recsS K lab (hr P r) (hs P r s) (f s)).Perm (recsS K lab (hr P r) (hs P r s) s ++ e)) :
    Grow K out (modScope out l f) ∧
    (recsL P K lab (modScope out l f)).Perm (recsL P K lab out ++ e) ∧
    shape P (modScope out l f) = shape P out ∧
    At (modScope out l f) l { r with scopes := r.scopes.modify l.2 f } (f s) ∧
    (AllL P G K out → AllS G K (hr P r) (hs P r s) (f s) → AllL P G K (modScope out l f)) := by
  obtain ⟨h1, h2⟩ := ha
  have hsame : hs P r (f s) = hs P r s := by unfold hs; rw [hg.1, hg.2.1]
  refine ⟨fun i x hx => ?_, ?_, ?_, ⟨?_, ?_⟩, fun hall hs' => ?_⟩
  · unfold modScope
    rw [getElem?_modify']
    by_cases hi : l.1 = i
    · subst hi
      rw [h1] at hx; cases hx
      refine ⟨{ r with scopes := r.scopes.modify l.2 f }, by rw [if_pos rfl, h1]; rfl, rfl, rfl, fun j t ht => ?_⟩
      show ∃ s', (r.scopes.modify l.2 f)[j]? = some s' ∧ _
      rw [getElem?_modify']
      by_cases hj : l.2 = j
      · subst hj
        rw [h2] at ht; cases ht
        exact ⟨f s, by rw [if_pos rfl, h2]; rfl, hg⟩
      · exact ⟨t, by rw [if_neg hj]; exact ht, GrowS.refl K t⟩
    · exact ⟨x, by rw [if_neg hi]; exact hx, GrowR.refl K x⟩
  · refine perm_flatMap_modify h1 _ _ _ ?_
    show (List.flatMap _ (r.scopes.modify l.2 f)).Perm (List.flatMap _ r.scopes ++ e)
    refine perm_flatMap_modify h2 _ _ _ ?_
    show (recsS K lab (hr P r) (hs P r (f s)) (f s)).Perm (recsS K lab (hr P r) (hs P r s) s ++ e)
    rw [hsame]; exact hp
  · refine map_modify_eq h1 _ _ ?_
    show (hr P r, (r.scopes.modify l.2 f).map (hs P r)) = _
    rw [map_modify_eq h2 f (hs P r) hsame]
  · unfold modScope; rw [getElem?_modify', if_pos rfl, h1]; rfl
  · show (r.scopes.modify l.2 f)[l.2]? = _
    rw [getElem?_modify', if_pos rfl, h2]; rfl
  · intro x hx
    rcases mem_modify h1 hx with rfl | hx
    · intro t ht
      rcases mem_modify h2 ht with rfl | ht
      · show AllS G K (hr P r) (hs P r (f s)) (f s)
        rw [hsame]; exact hs'
      · exact hall r (List.mem_of_getElem? h1) t ht
    · exact hall x hx

/-! ### The invariant -/

/-- Registered metrics are where the map says. -/
def MOk (P : Par) (K : Kd α β ι) (out : List (ResourceG α)) (m : AMap Nat (Nat × Nat × Nat)) : Prop :=
  ∀ mh p, m.get mh = some p → ∃ r s x, At out (p.1, p.2.1) r s ∧ s.items[p.2.2]? = some x ∧
    K.mh (hs P r s) (K.ident x) = mh

theorem MOk.grow {P : Par} {K : Kd α β ι} {o o' : List (ResourceG α)} {m} (h : MOk P K o m) (g : Grow K o o') : MOk P K o' m := by
  intro mh p hp
  obtain ⟨r, s, x, ha, hx, hh⟩ := h mh p hp
  obtain ⟨r', s', ha', gr, gs⟩ := g.at ha
  obtain ⟨x', hx', e⟩ := gs.2.2 _ _ hx
  exact ⟨r', s', x', ha', hx', by rw [gs.hs gr, e]; exact hh⟩

structure Inv (P : Par) (K : Kd α β ι) (G : Groups ι) (st : St α) : Prop where
  res : ∀ rh i, st.resource.get rh = some i ↔ ∃ r, st.out[i]? = some r ∧ hr P r = rh
  ord : st.order = st.out.mapIdx fun i r => (hr P r, i + 1)
  scope : ∀ sh l, st.scope.get sh = some l → ∃ r s, At st.out l r s ∧ hs P r s = sh
  met : MOk P K st.out st.metrics
  all : AllL P G K st.out

/-- The hypotheses on labels: they do not tell apart what the maps confuse. -/
structure LabOk (K : Kd α β ι) (G : Groups ι) (lab : Nat → Nat → Nat → γ) : Prop where
  scope : ∀ a b sh m, G.GS a sh → G.GS b sh → lab a sh m = lab b sh m
  item : ∀ a sh x b sh' y, G.GS a sh → G.GI sh x → G.GS b sh' → G.GI sh' y →
    K.mh sh x = K.mh sh' y →
    lab a sh (K.mh sh x) = lab b sh' (K.mh sh' y)

structure Added (P : Par) (K : Kd α β ι) (G : Groups ι) (lab : Nat → Nat → Nat → γ) (st st' : St α) (e : List (γ × β)) : Prop where
  inv : Inv P K G st'
  grow : Grow K st.out st'.out
  perm : (recsL P K lab st'.out).Perm (recsL P K lab st.out ++ e)
  hrs : st'.out.map (hr P) = st.out.map (hr P)

/-- What the operations of a signal must guarantee. -/
structure OpsOk (P : Par) (K : Kd α β ι) (o : Ops α) : Prop where
  reg : ∀ {out m l r s sh}, MOk P K out m → At out l r s → hs P r s = sh → MOk P K out (o.reg sh l s.items m)
  add : ∀ {γ : Type} {G : Groups ι} {lab : Nat → Nat → Nat → γ} {st st' : St α} {sh : Nat} {l : Nat × Nat} {xs : List α} {rh : Nat},
    LabOk K G lab → Inv P K G st → (∃ r s, At st.out l r s ∧ hs P r s = sh) → G.GS rh sh → (∀ x ∈ xs, G.GI sh (K.ident x)) →
    o.add sh l xs st = some st' →
    Added P K G lab st st' (xs.flatMap (recsI K lab rh sh)) ∧ st'.scope = st.scope ∧ shape P st'.out = shape P st.out

theorem mapIdx_congr_map {δ : Type} {l l' : List α} (g : α → δ) (h : l'.map g = l.map g) :
    (l'.mapIdx fun i r => (g r, i + 1)) = l.mapIdx fun i r => (g r, i + 1) := by
  have : ∀ l : List α, (l.mapIdx fun i r => (g r, i + 1)) = (l.map g).mapIdx fun i x => (x, i + 1) := fun l => by
    apply List.ext_getElem? ; intro n
    simp [List.getElem?_mapIdx, Function.comp_def]
  rw [this, this, h]

theorem res_of_hrs {P : Par} {o o' : List (ResourceG α)} (h : o'.map (hr P) = o.map (hr P)) (rh i : Nat) :
    (∃ r, o'[i]? = some r ∧ hr P r = rh) ↔ ∃ r, o[i]? = some r ∧ hr P r = rh := by
  have h1 : ∀ o : List (ResourceG α), (∃ r, o[i]? = some r ∧ hr P r = rh) ↔ (o.map (hr P))[i]? = some rh := fun o => by
    rw [List.getElem?_map, Option.map_eq_some_iff]
  rw [h1, h1, h]

/-- Preservation when one scope changes and maps other than `metrics` are unchanged. -/
theorem Inv.of_grow {P : Par} {K : Kd α β ι} {G : Groups ι} {st st' : St α} (h : Inv P K G st) (hg : Grow K st.out st'.out)
    (hh : st'.out.map (hr P) = st.out.map (hr P)) (h1 : st'.resource = st.resource) (h2 : st'.order = st.order)
    (h3 : st'.scope = st.scope) (h4 : MOk P K st'.out st'.metrics) (h5 : AllL P G K st'.out) : Inv P K G st' where
  res := fun rh i => by rw [h1, res_of_hrs hh]; exact h.res rh i
  ord := by rw [h2, h.ord]; exact (mapIdx_congr_map _ hh).symm
  scope := fun sh l hl => by
    rw [h3] at hl
    obtain ⟨r, s, ha, e⟩ := h.scope sh l hl
    obtain ⟨r', s', ha', gr, gs⟩ := hg.at ha
    exact ⟨r', s', ha', by rw [gs.hs gr]; exact e⟩
  met := h4
  all := h5

end Verif.Dt
