import Verif.Spec.WireAnswer
import Verif.Lemmas.EndToEnd
/-!
# Merging keeps data answerable
-/
namespace Verif.Ex
open Pb (Utf8)

variable {α : Type} {short : Bytes → Prop} {d : Nat} {ok : α → Prop}

theorem mem_modify {β : Type} {l : List β} {i : Nat} {f : β → β} {x : β} (h : x ∈ l.modify i f) : x ∈ l ∨ ∃ y ∈ l, x = f y := by
  induction l generalizing i with
  | nil => simp at h
  | cons a l ih =>
    cases i with
    | zero =>
      simp only [List.modify_zero_cons, List.mem_cons] at h
      rcases h with rfl | h
      · exact .inr ⟨a, List.mem_cons_self, rfl⟩
      · exact .inl (List.mem_cons_of_mem _ h)
    | succ i =>
      simp only [List.modify_succ_cons, List.mem_cons] at h
      rcases h with rfl | h
      · exact .inl List.mem_cons_self
      · rcases ih h with h | ⟨y, hy, rfl⟩
        · exact .inl (List.mem_cons_of_mem _ h)
        · exact .inr ⟨y, List.mem_cons_of_mem _ hy, rfl⟩

def Kept (short : Bytes → Prop) (d : Nat) (ok : α → Prop) (out : List (ResourceG α)) : Prop := ∀ r ∈ out, ResourceOk short d ok r

theorem kept_modScope {out : List (ResourceG α)} (h : Kept short d ok out) (l : Nat × Nat) {f : ScopeG α → ScopeG α}
    (hf : ∀ s, ScopesOk short d ok s → ScopesOk short d ok (f s)) : Kept short d ok (Dt.modScope out l f) := by
  intro r hr
  unfold Dt.modScope at hr
  rcases mem_modify hr with hr | ⟨y, hy, rfl⟩
  · exact h r hr
  · obtain ⟨h1, h2, h3⟩ := h y hy
    refine ⟨h1, h2, fun s hs => ?_⟩
    rcases mem_modify hs with hs | ⟨t, ht, rfl⟩
    · exact h3 s hs
    · exact hf t (h3 t ht)

theorem kept_scope {out : List (ResourceG α)} (h : Kept short d ok out) (i : Nat) {sm : ScopeG α} (hs : ScopesOk short d ok sm) :
    Kept short d ok (out.modify i fun r => { r with scopes := r.scopes ++ [sm] }) := by
  intro r hr
  rcases mem_modify hr with hr | ⟨y, hy, rfl⟩
  · exact h r hr
  · obtain ⟨h1, h2, h3⟩ := h y hy
    refine ⟨h1, h2, fun s hs' => ?_⟩
    rcases List.mem_append.1 hs' with hs' | hs'
    · exact h3 s hs'
    · obtain rfl := List.mem_singleton.1 hs'
      exact hs

theorem scope_items {s : ScopeG α} (h : ScopesOk short d ok s) {items : List α} (hi : ∀ x ∈ items, ok x) : ScopesOk short d ok { s with items } := ⟨h.1, h.2.1, hi⟩

/-- What is asked of the operations of a signal. -/
def Keeps (short : Bytes → Prop) (d : Nat) (ok : α → Prop) (o : Dt.Ops α) : Prop :=
  ∀ sh l xs st st', (∀ x ∈ xs, ok x) → Kept short d ok st.out → o.add sh l xs st = some st' → Kept short d ok st'.out

theorem plain_keeps : Keeps short d ok (Dt.plainOps α) := by
  intro sh l xs st st' hx h e
  cases e
  refine kept_modScope h l fun s hs => scope_items hs fun x hm => ?_
  rcases List.mem_append.1 hm with hm | hm
  · exact hs.2.2 x hm
  · exact hx x hm

theorem merge_ok {e : Nat} {om m om' : Metric} (h : MetricOk short e om) (h' : MetricOk short e m) (hm : Dt.mergeMetric om m = some om') : MetricOk short e om' := by
  unfold Dt.mergeMetric at hm
  split at hm
  · cases hm; exact h
  · rename_i x hx
    split at hm
    · cases hm
    · rename_i od hod
      split at hm
      · rename_i hk
        cases hm
        refine ⟨h.1, h.2.1, fun y hy => ?_⟩
        cases hy
        have h1 := h.2.2 od hod
        have h2 := h'.2.2 x hx
        refine ⟨h1.temporality, h1.plain, h1.monotonic, fun p hp => ?_⟩
        rcases List.mem_append.1 hp with hp | hp
        · exact h1.points p hp
        · have := h2.points p hp
          rw [← hk] at this
          exact this
      · cases hm

theorem get_ok {out : List (ResourceG Metric)} {okm : Metric → Prop} (h : Kept short d okm out) {p : Nat × Nat × Nat} {m : Metric} (hm : Dt.getMetric out p = some m) : okm m := by
  unfold Dt.getMetric at hm
  split at hm
  · cases hm
  · rename_i r hr
    split at hm
    · cases hm
    · rename_i s hs
      exact ((h r (List.mem_of_getElem? hr)).2.2 s (List.mem_of_getElem? hs)).2.2 m (List.mem_of_getElem? hm)

theorem metric_keeps (P : Dt.Par) {e : Nat} : Keeps short d (MetricOk short e) (Dt.metricOps P) := by
  intro sh l xs
  show ∀ st st', _ → _ → Dt.addMetrics P sh l xs st = some st' → _
  induction xs with
  | nil => intro st st' _ h e; cases e; exact h
  | cons m ms ih =>
    intro st st' hx h e
    simp only [Dt.addMetrics] at e
    split at e
    · refine ih _ _ (fun x hm => hx x (List.mem_cons_of_mem _ hm)) ?_ e
      refine kept_modScope h l fun s hs => scope_items hs fun x hm => ?_
      rcases List.mem_append.1 hm with hm | hm
      · exact hs.2.2 x hm
      · obtain rfl := List.mem_singleton.1 hm
        exact hx x List.mem_cons_self
    · rename_i p hp
      split at e
      · cases e
      · rename_i om hom
        split at e
        · cases e
        · rename_i om' hm'
          refine ih _ _ (fun x hm => hx x (List.mem_cons_of_mem _ hm)) ?_ e
          refine kept_modScope h _ fun s hs => scope_items hs fun x hm => ?_
          rcases List.mem_or_eq_of_mem_set hm with hm | rfl
          · exact hs.2.2 x hm
          · exact merge_ok (get_ok h hom) (hx m List.mem_cons_self) hm'

theorem regScopes_out (P : Dt.Par) (o : Dt.Ops α) (rh i : Nat) : ∀ (l : List (ScopeG α)) (j : Nat) (st : Dt.St α), (Dt.regScopes P o rh i j l st).out = st.out := by
  intro l
  induction l with
  | nil => intro j st; rfl
  | cons sm rest ih => intro j st; simp only [Dt.regScopes]; rw [ih]

theorem addScopes_kept (P : Dt.Par) {o : Dt.Ops α} (ho : Keeps short d ok o) (rh i : Nat) : ∀ (l : List (ScopeG α)) (st st' : Dt.St α), (∀ s ∈ l, ScopesOk short d ok s) →
    Kept short d ok st.out → Dt.addScopes P o rh i l st = some st' → Kept short d ok st'.out := by
  intro l
  induction l with
  | nil => intro st st' _ h e; cases e; exact h
  | cons sm rest ih =>
    intro st st' hl h e
    simp only [Dt.addScopes] at e
    split at e
    · exact ih _ _ (fun s hs => hl s (List.mem_cons_of_mem _ hs)) (kept_scope h i (hl sm List.mem_cons_self)) e
    · split at e
      · cases e
      · rename_i st1 h1
        exact ih _ _ (fun s hs => hl s (List.mem_cons_of_mem _ hs)) (ho _ _ _ _ _ (hl sm List.mem_cons_self).2.2 h h1) e

theorem addAll_kept (P : Dt.Par) {o : Dt.Ops α} (ho : Keeps short d ok o) : ∀ (l : List (ResourceG α)) (st st' : Dt.St α), Kept short d ok l →
    Kept short d ok st.out → Dt.addAll P o l st = some st' → Kept short d ok st'.out := by
  intro l
  induction l with
  | nil => intro st st' _ h e; cases e; exact h
  | cons rm rest ih =>
    intro st st' hl h e
    simp only [Dt.addAll] at e
    split at e
    · cases e
    · rename_i st1 h1
      refine ih _ _ (fun r hr => hl r (List.mem_cons_of_mem _ hr)) ?_ e
      have hrm := hl rm List.mem_cons_self
      simp only [Dt.addResource] at h1
      split at h1
      · cases h1
        rw [regScopes_out]
        intro r hr
        rcases List.mem_append.1 hr with hr | hr
        · exact h r hr
        · obtain rfl := List.mem_singleton.1 hr
          exact hrm
      · exact addScopes_kept P ho _ _ _ _ _ hrm.2.2 h h1

theorem collapseG_kept (P : Dt.Par) {o : Dt.Ops α} (ho : Keeps short d ok o) {perm : AMap Nat Nat → AMap Nat Nat} {ds : List (Option (List (ResourceG α)))} {out : List (ResourceG α)}
    (h : ∀ l, some l ∈ ds → Kept short d ok l) (e : Dt.collapseG P o perm ds = some out) : Kept short d ok out := by
  unfold Dt.collapseG at e
  split at e
  · cases e
  · rename_i l hl
    rw [Option.map_eq_some_iff] at e
    obtain ⟨st, hst, rfl⟩ := e
    have hmem : ∀ (ds : List (Option (List (ResourceG α)))) l, ds.mapM id = some l → ∀ x ∈ l, some x ∈ ds := by
      intro ds
      induction ds with
      | nil => intro l h x hx; simp at h; subst h; cases hx
      | cons a ds ih =>
        intro l h x hx
        simp only [List.mapM_cons, id_eq, Option.pure_def, Option.bind_eq_bind, Option.bind_eq_some_iff, Option.some.injEq] at h
        obtain ⟨y, rfl, l', h2, rfl⟩ := h
        rcases List.mem_cons.1 hx with rfl | hx
        · exact List.mem_cons_self
        · exact List.mem_cons_of_mem _ (ih l' h2 x hx)
    have hk : Kept short d ok st.out := by
      refine addAll_kept P ho l.flatten {} st (fun r hr => ?_) nofun hst
      obtain ⟨x, hx, hr⟩ := List.mem_flatten.1 hr
      exact h x (hmem ds l hl x hx) r hr
    intro r hr
    unfold Dt.result at hr
    obtain ⟨p, -, hp⟩ := List.mem_filterMap.1 hr
    rw [Option.bind_eq_some_iff] at hp
    obtain ⟨i, -, hi⟩ := hp
    exact hk r (List.mem_of_getElem? hi)

/-- Merged data is answerable, if it is made of answerable data. -/
theorem collapse_at (P : Dt.Par) {perm : AMap Nat Nat → AMap Nat Nat} {ts : List Data} {out : Data} (h : ∀ t ∈ ts, DataAt short d t)
    (e : Dt.collapse P perm ts = some (some out)) : DataAt short d out := by
  unfold Dt.collapse at e
  split at e
  · cases e
  · cases e; exact h _ List.mem_cons_self
  · split at e
    · rw [Option.map_eq_some_iff] at e
      obtain ⟨r, hr, e⟩ := e
      cases e
      refine collapseG_kept P (metric_keeps P) (fun l hl => ?_) hr
      obtain ⟨t, ht, hm⟩ := List.mem_map.1 hl
      have := h t ht
      cases t <;> simp only [Dt.Data.metrics?, Option.some.injEq, reduceCtorEq] at hm
      subst hm
      exact this
    · rw [Option.map_eq_some_iff] at e
      obtain ⟨r, hr, e⟩ := e
      cases e
      refine collapseG_kept P plain_keeps (fun l hl => ?_) hr
      obtain ⟨t, ht, hm⟩ := List.mem_map.1 hl
      have := h t ht
      cases t <;> simp only [Dt.Data.logs?, Option.some.injEq, reduceCtorEq] at hm
      subst hm
      exact this
    · rw [Option.map_eq_some_iff] at e
      obtain ⟨r, hr, e⟩ := e
      cases e
      refine collapseG_kept P plain_keeps (fun l hl => ?_) hr
      obtain ⟨t, ht, hm⟩ := List.mem_map.1 hl
      have := h t ht
      cases t <;> simp only [Dt.Data.traces?, Option.some.injEq, reduceCtorEq] at hm
      subst hm
      exact this
    · cases e

theorem project_at {kind : Int} {x : Data} (h : x = .none ∨ DataAt short d x) : DataAt short d (Df.project kind x) := by
  have hx : DataAt short d x := by rcases h with rfl | h; · trivial
                                   · exact h
  cases x <;> simp only [Df.project] <;> (try split) <;> first | exact hx | trivial

end Verif.Ex
