import Mathlib.Data.List.Nodup
import Verif.Lemmas.Self
/-! # C65: the database's own spans, grouped -/
namespace Verif.Sf

variable {κ β : Type} [DecidableEq κ] {emptySet : κ}

/-- **C65.** Whatever spans are exported, with nil spans between them, and in whatever order the map is read: the request groups
exactly these spans by resource and scope. -/
theorem C65_grouped (order : AMap κ (ResPtr κ) → AMap κ (ResPtr κ)) (ho : ∀ m, (order m).Perm m) (sdl : List (Option (SpanIn κ β))) :
    Grouped emptySet (sdl.filterMap id) (spans emptySet order sdl) := by
  unfold spans
  have hI := Inv.fold (sdl.filterMap id) (Inv.init (emptySet := emptySet) (β := β))
  rw [List.nil_append] at hI
  generalize sdl.filterMap id = live at *
  generalize hg : live.foldl (addSpan emptySet) {} = g at *
  clear hg
  have hp := ho g.rsm
  have hok : (order g.rsm).Ok := by
    unfold AMap.Ok; exact (hp.map _).nodup_iff.2 hI.rok
  have hget : ∀ e ∈ order g.rsm, g.rsm.get e.1 = some e.2 := fun e he => AMap.get_of_mem hI.rok (hp.mem_iff.1 he)
  -- a resource's attributes can be read off its group
  have hkey : ∀ e ∈ order g.rsm, e.2.resource.getD emptySet = e.1 := by
    intro e he
    obtain ⟨-, -, -, x, h1, h2, -⟩ := hI.res _ _ (hget e he)
    rw [h2]
    have := List.find?_some h1
    exact of_decide_eq_true this
  -- what a pointer of a resource points to
  have hpt : ∀ e ∈ order g.rsm, ∀ p ∈ e.2.scopes, ∃ sc l, g.ssm.get (e.1, sc) = some p ∧
      g.heap[p]? = some (ScopeSpans.mk (instrumentationScope sc) l sc.schema) ∧ l = ofKey emptySet live (e.1, sc) ∧ l ≠ [] := by
    intro e he p hpm
    obtain ⟨-, -, h3, -⟩ := hI.res _ _ (hget e he)
    obtain ⟨sc, hsc⟩ := (h3 p).1 hpm
    obtain ⟨l, h4, h5, h6⟩ := hI.ptr _ _ hsc
    exact ⟨sc, l, hsc, h4, h5, h6⟩
  refine ⟨?_, ?_, ?_, ?_, ?_, ?_⟩
  · rw [List.map_map]
    have : (order g.rsm).map ((ResourceSpans.key emptySet) ∘ fun e =>
        { resource := e.2.resource, scopes := e.2.scopes.filterMap (g.heap[·]?), schema := e.2.schema : ResourceSpans κ β }) =
        (order g.rsm).map (·.1) := List.map_congr_left fun e he => hkey e he
    rw [this]; exact hok
  · intro gr hgr
    obtain ⟨e, he, rfl⟩ := List.mem_map.1 hgr
    obtain ⟨-, hnd, -, -⟩ := hI.res _ _ (hget e he)
    have hpt := hpt e he
    show (List.map (·.key) (e.2.scopes.filterMap (g.heap[·]?))).Nodup
    generalize e.2.scopes = ps at *
    clear hgr
    induction ps with
    | nil => simp
    | cons p ps ih =>
      obtain ⟨sc, l, h1, h2, -⟩ := hpt p List.mem_cons_self
      rw [List.filterMap_cons, h2]
      simp only [List.map_cons, List.nodup_cons]
      refine ⟨?_, ih (List.nodup_cons.1 hnd).2 fun q hq => hpt q (List.mem_cons_of_mem _ hq)⟩
      rw [skey_eq]
      intro hm
      obtain ⟨s, hs, hsk⟩ := List.mem_map.1 hm
      obtain ⟨q, hq, hqs⟩ := List.mem_filterMap.1 hs
      obtain ⟨sc', l', h1', h2', -⟩ := hpt q (List.mem_cons_of_mem _ hq)
      rw [h2'] at hqs; cases hqs
      rw [skey_eq] at hsk; subst hsk
      rw [h1] at h1'; cases h1'
      exact (List.nodup_cons.1 hnd).1 hq
  · intro gr hgr s hs
    obtain ⟨e, he, rfl⟩ := List.mem_map.1 hgr
    obtain ⟨p, hpm, hps⟩ := List.mem_filterMap.1 hs
    obtain ⟨sc, l, -, h2, h3, h4⟩ := hpt e he p hpm
    rw [h2] at hps; cases hps
    refine ⟨h4, ?_⟩
    rw [skey_eq]
    unfold ResourceSpans.key
    rw [hkey e he]
    exact h3
  · intro x hx
    cases hk : g.ssm.get (x.res emptySet, x.scope) with
    | none => exact absurd rfl (hI.keys _ hk x hx)
    | some p =>
      cases hr : g.rsm.get (x.res emptySet) with
      | none => rw [hI.none' _ hr] at hk; cases hk
      | some rs =>
        have he := hp.mem_iff.2 (AMap.mem_of_get hr)
        refine ⟨_, List.mem_map.2 ⟨_, he, rfl⟩, hkey _ he, ?_⟩
        obtain ⟨-, -, h3, -⟩ := hI.res _ _ hr
        obtain ⟨l, h4, -⟩ := hI.ptr _ _ hk
        exact ⟨_, List.mem_filterMap.2 ⟨p, (h3 p).2 ⟨_, hk⟩, h4⟩, skey_eq _ _⟩
  · intro gr hgr
    obtain ⟨e, he, rfl⟩ := List.mem_map.1 hgr
    obtain ⟨h1, -⟩ := hI.res _ _ (hget e he)
    obtain ⟨p, hp'⟩ := List.exists_mem_of_ne_nil _ h1
    obtain ⟨sc, l, -, h2, -⟩ := hpt e he p hp'
    exact List.ne_nil_of_mem (List.mem_filterMap.2 ⟨p, hp', h2⟩)
  · intro gr hgr
    obtain ⟨e, he, rfl⟩ := List.mem_map.1 hgr
    obtain ⟨-, -, -, x, h1, h2, h3⟩ := hI.res _ _ (hget e he)
    refine ⟨x, ?_, h2, h3⟩
    unfold ResourceSpans.key
    rw [hkey e he]; exact h1

theorem perm_by_key {κ σ : Type} [DecidableEq κ] (key : σ → κ) (ks : List κ) (hk : ks.Nodup) (l : List σ) (h : ∀ x ∈ l, key x ∈ ks) :
    (ks.flatMap fun k => l.filter fun x => decide (key x = k)).Perm l := by
  induction ks generalizing l with
  | nil =>
    cases l with
    | nil => rfl
    | cons x l => exact absurd (h x List.mem_cons_self) (by simp)
  | cons k ks ih =>
    rw [List.flatMap_cons]
    refine List.Perm.trans (List.Perm.append_left _ ?_) (List.filter_append_perm (fun x => decide (key x = k)) l)
    refine List.Perm.trans (List.Perm.of_eq ?_) (ih (List.nodup_cons.1 hk).2 (l.filter fun x => !decide (key x = k)) ?_)
    · refine List.flatMap_congr fun k' hk' => ?_
      rw [List.filter_filter]
      refine List.filter_congr fun x _ => ?_
      have : k' ≠ k := fun e => (List.nodup_cons.1 hk).1 (e ▸ hk')
      by_cases e : key x = k'
      · simp [e, this]
      · simp [e]
    · intro x hx
      have hx := List.mem_filter.1 hx
      rcases List.mem_cons.1 (h x hx.1) with e | e
      · simp [e] at hx
      · exact e

theorem Grouped.keys_nodup {live : List (SpanIn κ β)} {out : List (ResourceSpans κ β)} (h : Grouped emptySet live out) :
    (out.flatMap fun g => g.scopes.map fun s => (g.key emptySet, s.key)).Nodup := by
  rw [List.nodup_flatMap]
  constructor
  · intro g hg
    have := h.scopes g hg
    rw [show (g.scopes.map fun s => (g.key emptySet, s.key)) = (g.scopes.map (·.key)).map (fun k => (g.key emptySet, k)) from by simp]
    exact this.map (fun a b e => by cases e; rfl)
  · have := h.resources
    unfold List.Nodup at this
    rw [List.pairwise_map] at this
    refine this.imp fun {a b} hab => ?_
    intro x hx hy
    obtain ⟨s, -, rfl⟩ := List.mem_map.1 hx
    obtain ⟨s', -, e⟩ := List.mem_map.1 hy
    exact hab (congrArg (·.1) e).symm

/-- **C65.** Every span that is not nil is exported exactly once. -/
theorem C65_once (order : AMap κ (ResPtr κ) → AMap κ (ResPtr κ)) (ho : ∀ m, (order m).Perm m) (sdl : List (Option (SpanIn κ β))) :
    ((spans emptySet order sdl).flatMap fun g => g.scopes.flatMap (·.spans)).Perm ((sdl.filterMap id).map (·.body)) := by
  have h := C65_grouped (emptySet := emptySet) order ho sdl
  generalize spans emptySet order sdl = out at *
  generalize sdl.filterMap id = live at *
  have hp := perm_by_key (fun x : SpanIn κ β => (x.res emptySet, x.scope)) _ h.keys_nodup live (by
    intro x hx
    obtain ⟨g, hg, e, s, hs, e'⟩ := h.all x hx
    exact List.mem_flatMap.2 ⟨g, hg, List.mem_map.2 ⟨s, hs, by rw [e, e']⟩⟩)
  refine List.Perm.trans (List.Perm.of_eq ?_) (hp.map _)
  rw [List.map_flatMap, List.flatMap_assoc]
  refine List.flatMap_congr fun g hg => ?_
  rw [List.flatMap_map]
  refine List.flatMap_congr fun s hs => ?_
  rw [(h.holds g hg s hs).2]
  congr 1
  refine List.filter_congr fun x _ => ?_
  simp only [Prod.mk.injEq]

/-- Five spans (one nil) of two resources and two scopes. -/
def toySpans : List (Option (SpanIn Nat Nat)) :=
  [some { resource := some (1, [1]), scope := {}, body := 10 }, some { resource := some (1, [2]), scope := { name := [7] }, body := 11 },
   none, some { resource := none, scope := { name := [7] }, body := 12 }, some { resource := some (1, [1]), scope := {}, body := 13 }]

example : spans 0 id toySpans =
    [{ resource := some 1, scopes := [{ scope := none, spans := [10, 13], schema := [] }, { scope := some ([7], []), spans := [11], schema := [] }],
       schema := [1] },
     { resource := none, scopes := [{ scope := some ([7], []), spans := [12], schema := [] }], schema := [] }] := by decide +kernel

example : ∀ m : AMap Nat (ResPtr Nat), (id m).Perm m := fun _ => List.Perm.refl _

/-- **C65 is false** of schema URLs: the second span has a resource with schema URL `2`, and is exported under schema URL `1` only. -/
theorem C65_refuted : ∃ x, some x ∈ toySpans ∧ x.resource = some (1, [2]) ∧
    ∀ g ∈ spans 0 id toySpans, (∃ s ∈ g.scopes, x.body ∈ s.spans) → g.schema = [1] := by
  refine ⟨{ resource := some (1, [2]), scope := { name := [7] }, body := 11 }, by simp [toySpans], rfl, ?_⟩
  decide +kernel

/-! ## C66: attribute values -/

theorem map_inj {α β : Type} {f : α → β} (hf : ∀ a b, f a = f b → a = b) : ∀ {l l' : List α}, l.map f = l'.map f → l = l'
  | [], [], _ => rfl
  | [], _ :: _, h => by simp at h
  | _ :: _, [], h => by simp at h
  | a :: l, b :: l', h => by
    simp only [List.map_cons, List.cons.injEq] at h
    rw [hf a b h.1, map_inj hf h.2]

theorem map_ne {α β γ : Type} {f : α → γ} {g : β → γ} (hne : ∀ a b, f a ≠ g b) : ∀ {l : List α} {l' : List β}, l.map f = l'.map g → l = [] ∧ l' = []
  | [], [], _ => ⟨rfl, rfl⟩
  | [], _ :: _, h => by simp at h
  | _ :: _, [], h => by simp at h
  | a :: l, b :: l', h => by
    simp only [List.map_cons, List.cons.injEq] at h
    exact absurd h.1 (hne a b)

/-- **C66.** Exported attribute values are equal exactly when the values are, or are of the few that cannot be told apart. -/
theorem C66_values (v w : Value) : value v = value w ↔ v = w ∨ Confused v w := by
  constructor
  · intro h
    cases v <;> cases w <;> simp only [value, Any.array.injEq, Any.bool.injEq, Any.int.injEq, Any.double.injEq, Any.str.injEq, reduceCtorEq] at h
    case bool.bool | int.int | double.double | str.str => exact .inl (by rw [h])
    case bools.bools => exact .inl (by rw [map_inj (fun a b e => by cases e; rfl) h])
    case ints.ints => exact .inl (by rw [map_inj (fun a b e => by cases e; rfl) h])
    case doubles.doubles => exact .inl (by rw [map_inj (fun a b e => by cases e; rfl) h])
    case strs.strs => exact .inl (by rw [map_inj (fun a b e => by cases e; rfl) h])
    case invalid.invalid => exact .inl rfl
    case str.invalid => exact .inr (h ▸ .text')
    case invalid.str => exact .inr (h ▸ .text)
    all_goals
      obtain ⟨rfl, rfl⟩ := map_ne (fun a b e => by cases e) h
      exact .inr (.empty (by simp) (by simp))
  · rintro (rfl | h)
    · rfl
    · cases h with
      | text => rfl
      | text' => rfl
      | empty hv hw => rcases hv with rfl | rfl | rfl | rfl <;> rcases hw with rfl | rfl | rfl | rfl <;> rfl

/-- **C66 is false** in general. -/
theorem C66_refuted : value .invalid = value (.str invalidText) ∧ value (.bools []) = value (.strs []) := ⟨rfl, rfl⟩

example : value (.ints [1, 2]) ≠ value (.ints [1, 3]) := by simp [value]

/-! ## C67: metrics -/

variable {α γ : Type} (conv : α → γ)

theorem outData_ok {d : Agg α} {o : OData γ} (h : outData conv d = .ok o) : d.reason = none ∧ SameData conv d o := by
  have ht : ∀ {t : Nat} {f : Nat → OData γ}, (temporality t).map f = .ok o → (t = 1 ∨ t = 2) ∧ ∃ t', SameTemporality t t' ∧ o = f t' := by
    intro t f h
    unfold temporality at h
    by_cases h2 : t = 2
    · rw [if_pos h2] at h; cases h; exact ⟨.inr h2, 1, .inr ⟨h2, rfl⟩, rfl⟩
    · rw [if_neg h2] at h
      by_cases h1 : t = 1
      · rw [if_pos h1] at h; cases h; exact ⟨.inl h1, 2, .inl ⟨h1, rfl⟩, rfl⟩
      · rw [if_neg h1] at h; cases h
  cases d with
  | gauge pts => cases h; exact ⟨rfl, .gauge pts⟩
  | summary pts => cases h; exact ⟨rfl, .summary pts⟩
  | unknown => cases h
  | sum t mono pts => obtain ⟨h1, t', h2, rfl⟩ := ht h; exact ⟨by simp [Agg.reason, h1], .sum mono pts h2⟩
  | hist t pts => obtain ⟨h1, t', h2, rfl⟩ := ht h; exact ⟨by simp [Agg.reason, h1], .hist pts h2⟩
  | expHist t pts => obtain ⟨h1, t', h2, rfl⟩ := ht h; exact ⟨by simp [Agg.reason, h1], .expHist pts h2⟩

theorem outData_error {d : Agg α} {e : Err} (h : outData conv d = .error e) : ∃ r, d.reason = some r ∧ e = .wrap r := by
  have ht : ∀ {t : Nat} {f : Nat → OData γ}, (temporality t).map f = .error e → ¬ (t = 1 ∨ t = 2) ∧ e = .wrap .unknownTemporality := by
    intro t f h
    unfold temporality at h
    by_cases h2 : t = 2
    · rw [if_pos h2] at h; cases h
    · rw [if_neg h2] at h
      by_cases h1 : t = 1
      · rw [if_pos h1] at h; cases h
      · rw [if_neg h1] at h; cases h; exact ⟨by simp [h1, h2], rfl⟩
  cases d with
  | gauge pts => cases h
  | summary pts => cases h
  | unknown => cases h; exact ⟨_, rfl, rfl⟩
  | sum t mono pts => obtain ⟨h1, h2⟩ := ht h; exact ⟨_, by simp [Agg.reason, h1], h2⟩
  | hist t pts => obtain ⟨h1, h2⟩ := ht h; exact ⟨_, by simp [Agg.reason, h1], h2⟩
  | expHist t pts => obtain ⟨h1, h2⟩ := ht h; exact ⟨_, by simp [Agg.reason, h1], h2⟩

theorem metrics_acc (ms : List (MetricIn α)) (out : List (MetricOut γ)) (errs : List Err) :
    ∃ out' es, (metrics conv ms out errs) = (out ++ out', if (errs ++ es).isEmpty then none else some (.multi (errs ++ es))) ∧
      List.Forall₂ (Exported conv) (ms.filter (·.valid)) out' ∧ List.Forall₂ Reports (ms.filter (!·.valid)) es := by
  induction ms generalizing out errs with
  | nil => exact ⟨[], [], by simp [metrics, errOrNil], .nil, .nil⟩
  | cons m ms ih =>
    unfold metrics metric
    cases hd : outData conv m.data with
    | error e =>
      obtain ⟨r, hr, rfl⟩ := outData_error conv hd
      obtain ⟨out', es, h1, h2, h3⟩ := ih out (errs ++ [.metric m.name (.wrap r)])
      refine ⟨out', .metric m.name (.wrap r) :: es, ?_, ?_, ?_⟩
      · simp only [Except.map, appendErr]; rw [h1]; simp
      · rw [List.filter_cons_of_neg (by simp [MetricIn.valid, hr])]; exact h2
      · rw [List.filter_cons_of_pos (by simp [MetricIn.valid, hr])]; exact .cons ⟨r, hr, rfl⟩ h3
    | ok o =>
      obtain ⟨hr, ho⟩ := outData_ok conv hd
      obtain ⟨out', es, h1, h2, h3⟩ := ih (out ++ [{ name := m.name, description := m.description, unit := m.unit, data := o }]) errs
      refine ⟨{ name := m.name, description := m.description, unit := m.unit, data := o } :: out', es, ?_, ?_, ?_⟩
      · simp only [Except.map]; rw [h1]; simp
      · rw [List.filter_cons_of_pos (by simp [MetricIn.valid, hr])]; exact .cons ⟨rfl, rfl, rfl, ho⟩ h2
      · rw [List.filter_cons_of_neg (by simp [MetricIn.valid, hr])]; exact h3

theorem forall₂_left {σ τ : Type} {R : σ → τ → Prop} {l : List σ} {l' : List τ} (h : List.Forall₂ R l l') : ∀ x ∈ l, ∃ y ∈ l', R x y := by
  induction h with
  | nil => simp
  | cons h _ ih =>
    intro x hx
    rcases List.mem_cons.1 hx with rfl | hx
    · exact ⟨_, List.mem_cons_self, h⟩
    · obtain ⟨y, hy, hr⟩ := ih x hx; exact ⟨y, List.mem_cons_of_mem _ hy, hr⟩

theorem forall₂_right {σ τ : Type} {R : σ → τ → Prop} {l : List σ} {l' : List τ} (h : List.Forall₂ R l l') : ∀ y ∈ l', ∃ x ∈ l, R x y := by
  induction h with
  | nil => simp
  | cons h _ ih =>
    intro x hx
    rcases List.mem_cons.1 hx with rfl | hx
    · exact ⟨_, List.mem_cons_self, h⟩
    · obtain ⟨y, hy, hr⟩ := ih x hx; exact ⟨y, List.mem_cons_of_mem _ hy, hr⟩

theorem reported_of {bad : List (MetricIn α)} {es : List Err} (h : List.Forall₂ Reports bad es) :
    Reported bad (if es.isEmpty then none else some (.multi es)) := by
  cases h with
  | nil => exact .inl ⟨rfl, rfl⟩
  | cons h1 h2 => exact .inr ⟨_, by simp, rfl, .cons h1 h2⟩

/-- **C67.** The metrics of one scope: those that are valid are exported, in order, and each of the others is reported. -/
theorem C67_metrics (ms : List (MetricIn α)) : List.Forall₂ (Exported conv) (ms.filter (·.valid)) (metrics conv ms [] []).1 ∧
    Reported (ms.filter (!·.valid)) (metrics conv ms [] []).2 := by
  obtain ⟨out', es, h1, h2, h3⟩ := metrics_acc conv ms [] []
  rw [h1]
  exact ⟨by simpa using h2, reported_of (by simpa using h3)⟩

theorem scopeMetrics_acc (ss : List (ScopeM (MetricIn α))) (out : List (ScopeM (MetricOut γ))) (errs : List Err) :
    ∃ out' es, scopeMetrics conv ss out errs = (out ++ out', if (errs ++ es).isEmpty then none else some (.multi (errs ++ es))) ∧
      List.Forall₂ (fun s o => o.scope = s.scope ∧ List.Forall₂ (Exported conv) (s.metrics.filter (·.valid)) o.metrics) ss out' ∧
      List.Forall₂ Reports (ss.flatMap fun s => s.metrics.filter (!·.valid)) es := by
  induction ss generalizing out errs with
  | nil => exact ⟨[], [], by simp [scopeMetrics, errOrNil], .nil, .nil⟩
  | cons s ss ih =>
    obtain ⟨om, em, h1, h2, h3⟩ := metrics_acc conv s.metrics ([] : List (MetricOut γ)) []
    unfold scopeMetrics
    simp only [h1, List.nil_append]
    obtain ⟨out', es, g1, g2, g3⟩ := ih (out ++ [{ scope := s.scope, metrics := om }]) (errs ++ em)
    refine ⟨{ scope := s.scope, metrics := om } :: out', em ++ es, ?_, .cons ⟨rfl, h2⟩ g2, ?_⟩
    · cases em with
      | nil =>
        rw [List.append_nil] at g1
        rw [show (if ([] : List Err).isEmpty then none else some (Err.multi [])) = none from rfl]
        simp only
        rw [g1]; simp
      | cons e em => rw [if_neg (by simp)]; simp only [appendErr]; rw [g1]; simp
    · rw [List.flatMap_cons]
      exact List.rel_append h3 g3

/-- **C67.** All scopes are exported, in order, each with its valid metrics, and every other metric is reported, each once. -/
theorem C67_scopes (ss : List (ScopeM (MetricIn α))) :
    List.Forall₂ (fun s o => o.scope = s.scope ∧ List.Forall₂ (Exported conv) (s.metrics.filter (·.valid)) o.metrics) ss (scopeMetrics conv ss [] []).1 ∧
      Reported (ss.flatMap fun s => s.metrics.filter (!·.valid)) (scopeMetrics conv ss [] []).2 := by
  obtain ⟨out', es, h1, h2, h3⟩ := scopeMetrics_acc conv ss [] []
  rw [h1]
  exact ⟨by simpa using h2, reported_of (by simpa using h3)⟩

/-- **C67.** A request is sent exactly if every metric is valid, and then it holds all of them; otherwise each invalid one is
reported, and nothing is sent. -/
theorem C67_export (ss : List (ScopeM (MetricIn α))) :
    ((∀ s ∈ ss, ∀ m ∈ s.metrics, m.valid = true) → (export' conv ss).2 = none ∧ ∃ o, (export' conv ss).1 = some o ∧
      List.Forall₂ (fun s o => o.scope = s.scope ∧ List.Forall₂ (Exported conv) s.metrics o.metrics) ss o) ∧
    ((∃ s ∈ ss, ∃ m ∈ s.metrics, m.valid = false) → (export' conv ss).1 = none ∧
      Reported (ss.flatMap fun s => s.metrics.filter (!·.valid)) (export' conv ss).2 ∧ (export' conv ss).2 ≠ none) := by
  have h := C67_scopes conv ss
  unfold export'
  simp only
  constructor
  · intro hv
    have hb : (ss.flatMap fun s => s.metrics.filter (!·.valid)) = [] := by
      rw [List.flatMap_eq_nil_iff]
      intro s hs
      rw [List.filter_eq_nil_iff]
      intro m hm
      simp [hv s hs m hm]
    rw [hb] at h
    rcases h.2 with ⟨-, he⟩ | ⟨es, hne, -⟩
    · rw [he]
      refine ⟨rfl, _, rfl, ?_⟩
      have hall : List.Forall₂ (fun s o => s ∈ ss ∧ (o.scope = s.scope ∧ List.Forall₂ (Exported conv) (s.metrics.filter (·.valid)) o.metrics)) ss
          (scopeMetrics conv ss [] []).1 := by
        have := h.1
        generalize (scopeMetrics conv ss [] []).1 = os at this
        clear h he hb hv
        induction this with
        | nil => exact .nil
        | cons hx _ ih => exact .cons ⟨List.mem_cons_self, hx⟩ (ih.imp fun _ _ h => ⟨List.mem_cons_of_mem _ h.1, h.2⟩)
      refine hall.imp fun s o ⟨hs, h1, h2⟩ => ⟨h1, ?_⟩
      rwa [List.filter_eq_self.2 (hv s hs)] at h2
    · exact absurd rfl hne
  · rintro ⟨s, hs, m, hm, hv⟩
    have hb : (ss.flatMap fun s => s.metrics.filter (!·.valid)) ≠ [] :=
      List.ne_nil_of_mem (List.mem_flatMap.2 ⟨s, hs, List.mem_filter.2 ⟨hm, by simp [hv]⟩⟩)
    rcases h.2 with ⟨he, -⟩ | ⟨es, -, he, h3⟩
    · exact absurd he hb
    · rw [he]
      exact ⟨rfl, .inr ⟨es, hb, rfl, h3⟩, by simp⟩

/-! ### errors.Is -/

theorem isErr_sentinel {r : Err} (hr : r = .unknownAggregation ∨ r = .unknownTemporality) (n : Nat) (t : Err) : isErr (n + 1) r t = same r t := by
  rcases hr with rfl | rfl <;> cases n <;> simp [isErr, asksIs, unwraps]

theorem isErr_wrap (n : Nat) (e t : Err) : isErr (n + 2) (.wrap e) t = isErr n e t := by
  simp [isErr, asksIs, unwraps, same]

theorem isErr_metric (n : Nat) (nm : Bytes) (e t : Err) : isErr (n + 2) (.metric nm e) t = isErr n e t := by
  simp [isErr, asksIs, unwraps, same]

theorem isErr_one (n : Nat) (e t : Err) : isErr (n + 2) (.multi [e]) t = isErr n e t := by
  simp [isErr, asksIs, unwraps, same]

theorem isErr_more (n : Nat) (e e' : Err) (es : List Err) (t : Err) :
    isErr (n + 2) (.multi (e :: e' :: es)) t = (isErr n e t || isErr n (.multi (e' :: es)) t) := by
  rw [isErr, asksIs, unwraps]; simp [same]

theorem isErr_report {r : Err} (hr : r = .unknownAggregation ∨ r = .unknownTemporality) (n : Nat) (nm : Bytes) (t : Err) :
    isErr (n + 5) (.metric nm (.wrap r)) t = same r t := by
  rw [show n + 5 = (n + 1) + 2 + 2 from rfl, isErr_metric, isErr_wrap, isErr_sentinel hr]

theorem isErr_multi {es : List Err} {t : Err} {n : Nat} (h : ∀ e ∈ es, ∃ r nm, (r = .unknownAggregation ∨ r = .unknownTemporality) ∧ e = Err.metric nm (.wrap r))
    (hn : 2 * es.length + 7 ≤ n) : isErr n (.multi es) t = es.any fun e => isErr 5 e t := by
  induction es generalizing n with
  | nil =>
    obtain ⟨k, rfl⟩ := Nat.exists_eq_add_of_le hn
    rw [show 2 * ([] : List Err).length + 7 + k = (k + 5) + 2 from by simp; omega]
    simp [isErr, asksIs, unwraps, same]
  | cons e es ih =>
    obtain ⟨k, rfl⟩ := Nat.exists_eq_add_of_le hn
    rw [show 2 * (e :: es).length + 7 + k = (2 * es.length + 7 + k) + 2 from by simp; omega]
    obtain ⟨r, nm, hr, rfl⟩ := h _ List.mem_cons_self
    have he : isErr (2 * es.length + 7 + k) (.metric nm (.wrap r)) t = same r t := by
      rw [show 2 * es.length + 7 + k = (2 * es.length + 2 + k) + 5 from by omega]
      exact isErr_report hr _ nm t
    have h5 : isErr 5 (.metric nm (.wrap r)) t = same r t := isErr_report hr 0 nm t
    have hi := ih (fun e he => h e (List.mem_cons_of_mem _ he)) (Nat.le_add_right _ k)
    rw [List.any_cons, h5]
    cases es with
    | nil => rw [isErr_one, he]; simp
    | cons e' es => rw [isErr_more, he, hi]

theorem reason_cases {d : Agg α} {r : Err} (h : d.reason = some r) : r = .unknownAggregation ∨ r = .unknownTemporality := by
  have ht : ∀ {t : Nat}, (if t = 1 ∨ t = 2 then none else some Err.unknownTemporality) = some r → r = .unknownTemporality := by
    intro t ht
    by_cases h : t = 1 ∨ t = 2
    · rw [if_pos h] at ht; exact (nomatch ht)
    · rw [if_neg h] at ht; cases ht; rfl
  cases d with
  | gauge _ => exact (nomatch h)
  | summary _ => exact (nomatch h)
  | unknown => cases h; exact .inl rfl
  | sum t _ _ => exact .inr (ht h)
  | hist t _ => exact .inr (ht h)
  | expHist t _ => exact .inr (ht h)

/-- **C67.** The caller can ask the error of an export for a cause: `errors.Is` finds it exactly if some metric is invalid for that cause. -/
theorem C67_is (ss : List (ScopeM (MetricIn α))) {e t : Err} (he : (export' conv ss).2 = some e) (ht : t = .unknownAggregation ∨ t = .unknownTemporality) :
    ((∃ s ∈ ss, ∃ m ∈ s.metrics, m.data.reason = some t) → Is e t) ∧ ((∀ s ∈ ss, ∀ m ∈ s.metrics, m.data.reason ≠ some t) → IsNot e t) := by
  have hr := (C67_scopes conv ss).2
  have he' : (scopeMetrics conv ss ([] : List (ScopeM (MetricOut γ))) []).2 = some e := by
    unfold export' at he
    cases h : (scopeMetrics conv ss ([] : List (ScopeM (MetricOut γ))) []).2 with
    | none => simp only [h] at he; exact (nomatch he)
    | some e' => simp only [h] at he; exact he
  rw [he'] at hr
  rcases hr with ⟨-, h⟩ | ⟨es, -, h, hes⟩
  · exact (nomatch h)
  cases h
  have hshape : ∀ e ∈ es, ∃ r nm, (r = .unknownAggregation ∨ r = .unknownTemporality) ∧ e = Err.metric nm (.wrap r) := by
    intro e he
    obtain ⟨m, -, r, hr, rfl⟩ := forall₂_right hes e he
    exact ⟨r, m.name, reason_cases hr, rfl⟩
  have hsame : ∀ r, same r t = true ↔ r = t := by
    intro r; rcases ht with rfl | rfl <;> cases r <;> simp [same]
  constructor
  · rintro ⟨s, hs, m, hm, hmr⟩
    refine ⟨2 * es.length + 7, fun n hn => ?_⟩
    rw [isErr_multi hshape hn, List.any_eq_true]
    have hb : m ∈ (ss.flatMap fun s => s.metrics.filter (!·.valid)) :=
      List.mem_flatMap.2 ⟨s, hs, List.mem_filter.2 ⟨hm, by simp [MetricIn.valid, hmr]⟩⟩
    obtain ⟨e, he, r, hr, rfl⟩ := forall₂_left hes m hb
    rw [hmr] at hr; cases hr
    exact ⟨_, he, (isErr_report ht 0 m.name t).trans ((hsame t).2 rfl)⟩
  · intro hno
    refine ⟨2 * es.length + 7, fun n hn => ?_⟩
    rw [isErr_multi hshape hn, List.any_eq_false]
    intro e he hcon
    obtain ⟨m, hm, r, hr, rfl⟩ := forall₂_right hes e he
    obtain ⟨r', nm, hr', h⟩ := hshape _ he
    cases h
    rw [isErr_report hr' 0, hsame] at hcon
    obtain ⟨s, hs, hms⟩ := List.mem_flatMap.1 hm
    exact hno s hs m (List.mem_filter.1 hms).1 (hcon ▸ hr)

/-- Two scopes with a good and three bad metrics. -/
def toyMetrics : List (ScopeM (MetricIn Nat)) :=
  [{ scope := {}, metrics := [{ name := [1], data := .sum 1 true [5] }, { name := [2], data := .unknown }] },
   { scope := { name := [9] }, metrics := [{ name := [3], data := .hist 0 [] }, { name := [4], data := .gauge [6, 7] }] }]

example : (scopeMetrics id toyMetrics [] []).1.map (fun o => o.metrics.map (·.name)) = [[[1]], [[4]]] := by decide +kernel

example : ∃ e, (export' id toyMetrics).2 = some e ∧ isErr 20 e .unknownAggregation = true ∧ isErr 20 e .unknownTemporality = true :=
  ⟨_, rfl, by decide +kernel, by decide +kernel⟩

example : ∃ s ∈ toyMetrics, ∃ m ∈ s.metrics, m.data.reason = some .unknownTemporality :=
  ⟨_, List.mem_cons_of_mem _ List.mem_cons_self, _, List.mem_cons_self, rfl⟩

example : ∀ s ∈ [{ scope := {}, metrics := [{ name := [1], data := .sum 1 true [5] }] : ScopeM (MetricIn Nat) }], ∀ m ∈ s.metrics, m.valid = true := by
  decide +kernel

/-- **C67 is false** if valid metrics are to be exported whatever comes with them: here two metrics are valid, and nothing is sent. -/
theorem C67_refuted : (∃ s ∈ toyMetrics, ∃ m ∈ s.metrics, m.valid = true) ∧ (export' id toyMetrics).1 = none :=
  ⟨⟨_, List.mem_cons_self, _, List.mem_cons_self, rfl⟩, rfl⟩

end Verif.Sf
