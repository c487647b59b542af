import Verif.Spec.Clash
import Verif.Lemmas.Collapse3
/-!
# When merging metrics crashes: the merge follows the arrivals
-/
namespace Verif.Dt

/-- The kinds of registered metrics. -/
abbrev Reg := Nat → Option (Option MKind)

def upd (reg : Reg) (k : Nat) (t : Option MKind) : Reg := fun x => if x = k then some t else reg x

/-- One arrival. -/
def proc1 (reg : Reg) (a : Arrival) : Option Reg :=
  if a.whole then some (upd reg a.key a.kind)
  else match reg a.key with
    | none => some (upd reg a.key a.kind)
    | some t => if a.kind ≠ none ∧ t ≠ a.kind then none else some reg

def proc : List Arrival → Reg → Option Reg
  | [], reg => some reg
  | a :: as, reg =>
    match proc1 reg a with
    | none => none
    | some reg => proc as reg

theorem proc_append (as bs : List Arrival) (reg : Reg) : proc (as ++ bs) reg = (proc as reg).bind (proc bs) := by
  induction as generalizing reg with
  | nil => rfl
  | cons a as ih =>
    simp only [List.cons_append, proc]
    cases proc1 reg a with
    | none => rfl
    | some r => exact ih r

theorem owner_snoc (as : List Arrival) (a : Arrival) (k : Nat) : owner (as ++ [a]) k =
    if a.key = k ∧ (a.whole = true ∨ owner as k = none) then some a.kind else owner as k := by
  unfold owner
  rw [List.reverse_append, List.reverse_singleton, List.singleton_append, List.find?_cons, List.find?_append]
  by_cases hk : a.key = k
  · by_cases hw : a.whole = true
    · simp [hk, hw]
    · have hw' : a.whole = false := by simpa using hw
      simp only [hw', Bool.false_and, Bool.false_eq_true, false_or, hk, true_and]
      cases as.reverse.find? fun a => a.whole && a.key == k with
      | some b => simp
      | none =>
        simp only [Option.map_eq_none_iff]
        cases as.find? fun a => a.key == k with
        | some b => simp
        | none => simp [hk]
  · have h1 : (a.key == k) = false := by simpa using hk
    simp only [h1, Bool.and_false, hk, false_and, if_false]
    cases as.reverse.find? fun a => a.whole && a.key == k with
    | some b => simp
    | none =>
      simp only
      cases as.find? fun a => a.key == k <;> simp [h1]

theorem proc_owner (as pre : List Arrival) (hc : ¬ Clash pre) : proc as (owner pre) = none ↔ Clash (pre ++ as) := by
  induction as generalizing pre with
  | nil => simp [proc, hc]
  | cons a as ih =>
    have e : pre ++ a :: as = (pre ++ [a]) ++ as := by simp
    by_cases hcl : a.whole = false ∧ a.kind ≠ none ∧ ∃ t, owner pre a.key = some t ∧ t ≠ a.kind
    · refine iff_of_true ?_ ⟨pre, a, as, rfl, hcl⟩
      obtain ⟨h1, h2, t, h3, h4⟩ := hcl
      simp only [proc, proc1, h1, Bool.false_eq_true, if_false, h3]
      rw [if_pos ⟨h2, h4⟩]
    · have hstep : proc1 (owner pre) a = some (owner (pre ++ [a])) := by
        unfold proc1
        by_cases hw : a.whole = true
        · rw [if_pos hw]
          congr 1
          funext x
          rw [owner_snoc]
          unfold upd
          by_cases hx : x = a.key
          · subst hx; simp [hw]
          · rw [if_neg hx, if_neg]; exact fun h => hx h.1.symm
        · have hw' : a.whole = false := by simpa using hw
          rw [if_neg hw]
          cases ho : owner pre a.key with
          | none =>
            simp only
            congr 1
            funext x
            rw [owner_snoc]
            unfold upd
            by_cases hx : x = a.key
            · subst hx; simp [ho]
            · rw [if_neg hx, if_neg]; exact fun h => hx h.1.symm
          | some t =>
            simp only
            rw [if_neg]
            · congr 1
              funext x
              rw [owner_snoc, if_neg]
              rintro ⟨rfl, h⟩
              rw [hw', ho] at h
              simp at h
            · rintro ⟨h1, h2⟩; exact hcl ⟨hw', h1, t, ho, h2⟩
      have hc' : ¬ Clash (pre ++ [a]) := by
        rintro ⟨p, b, q, h, hb⟩
        rcases List.eq_nil_or_concat q with rfl | ⟨q', c, rfl⟩
        · obtain ⟨h1, h2⟩ := List.append_inj' h rfl
          simp only [List.cons.injEq, and_true] at h2
          subst h1 h2
          exact hcl hb
        · refine hc ⟨p, b, q', ?_, hb⟩
          have : pre ++ [a] = (p ++ b :: q') ++ [c] := by simpa using h
          exact (List.append_inj' this rfl).1
      simp only [proc, hstep]
      rw [ih _ hc', e]

theorem proc_clash (as : List Arrival) : proc as (fun _ => none) = none ↔ Clash as := by
  have h : owner [] = fun _ => none := by funext k; rfl
  have := proc_owner as [] (by rintro ⟨p, a, q, h, -⟩; simp at h)
  rwa [h, List.nil_append] at this

/-! ## The maps -/

/-- No restriction. -/
def anyG : Groups (Bytes × Option MKind) := ⟨fun _ _ => True, fun _ _ => True⟩

abbrev MInv (P : Par) (st : St Metric) : Prop := Inv P (Kd.metric P) anyG st

/-- `reg` is what the map of metrics knows. -/
def Kinds (out : List (ResourceG Metric)) (m : AMap Nat (Nat × Nat × Nat)) (reg : Reg) : Prop :=
  ∀ k, reg k = (m.get k).map fun p => (getMetric out p).bind Metric.kind

theorem Kinds.grow {P : Par} {o o' : List (ResourceG Metric)} {m : AMap Nat (Nat × Nat × Nat)} {reg : Reg} (h : Kinds o m reg)
    (hm : MOk P (Kd.metric P) o m) (g : Grow (Kd.metric P) o o') : Kinds o' m reg := by
  intro k
  rw [h k]
  cases hp : m.get k with
  | none => rfl
  | some p =>
    obtain ⟨r, s, x, ha, hx, -⟩ := hm k p hp
    obtain ⟨r', s', ha', -, gs⟩ := g.at ha
    obtain ⟨x', hx', e⟩ := gs.2.2 _ _ hx
    simp only [Option.map_some, getMetric_of_at ha hx, getMetric_of_at ha' hx', Option.bind_some]
    rw [show Metric.kind x' = Metric.kind x from (Prod.mk.inj e).2]

theorem Kinds.set {out : List (ResourceG Metric)} {m : AMap Nat (Nat × Nat × Nat)} {reg : Reg} {k : Nat} {p : Nat × Nat × Nat}
    {x : Metric} (h : Kinds out m reg) (hx : getMetric out p = some x) : Kinds out (m.set k p) (upd reg k (Metric.kind x)) := by
  intro k'
  rw [AMap.get_set]
  unfold upd
  by_cases hk : k' = k
  · subst hk; simp [hx]
  · rw [if_neg hk, if_neg (Ne.symm hk)]; exact h k'

theorem mergeMetric_none {om m : Metric} : mergeMetric om m = none ↔ Metric.kind m ≠ none ∧ Metric.kind om ≠ Metric.kind m := by
  unfold mergeMetric Metric.kind
  cases m.data with
  | none => simp
  | some d =>
    cases om.data with
    | none => simp
    | some od => by_cases h : od.kind = d.kind <;> simp [h]

theorem addMetrics_cons (P : Par) (sh : Nat) (l : Nat × Nat) (m : Metric) (ms : List Metric) (st : St Metric) :
    addMetrics P sh l (m :: ms) st = (addMetrics P sh l [m] st).bind (addMetrics P sh l ms) := by
  cases hm : st.metrics.get (hashMetric P sh m.name) with
  | none => simp only [addMetrics, hm, Option.bind_some]
  | some p =>
    cases hg : getMetric st.out p with
    | none => simp only [addMetrics, hm, hg, Option.bind_none]
    | some om =>
      cases hmm : mergeMetric om m with
      | none => simp only [addMetrics, hm, hg, hmm, Option.bind_none]
      | some om' => simp only [addMetrics, hm, hg, hmm, Option.bind_some]

theorem anyLab (P : Par) : LabOk (Kd.metric P) anyG (fun _ _ _ => ()) := labUnit _ _

theorem addMetrics_one {P : Par} {sh : Nat} {l : Nat × Nat} {m : Metric} {st : St Metric} {reg : Reg} (hi : MInv P st)
    (hat : ∃ r s, At st.out l r s ∧ hs P r s = sh) (hk : Kinds st.out st.metrics reg) :
    match proc1 reg ⟨false, hashMetric P sh m.name, Metric.kind m⟩ with
    | none => addMetrics P sh l [m] st = none
    | some reg' => ∃ st', addMetrics P sh l [m] st = some st' ∧ Kinds st'.out st'.metrics reg' := by
  obtain ⟨r, s, ha, e⟩ := hat
  have hkk := hk (hashMetric P sh m.name)
  cases hm : st.metrics.get (hashMetric P sh m.name) with
  | none =>
    rw [hm] at hkk
    simp only [proc1, Bool.false_eq_true, if_false, hkk, Option.map_none]
    have heq : addMetrics P sh l [m] st = some { st with
        out := modScope st.out l fun s => { s with items := s.items ++ [m] }
        metrics := st.metrics.set (hashMetric P sh m.name) (l.1, l.2, s.items.length) } := by
      simp only [addMetrics, hm, ha.1, ha.2, Option.bind_some]
    refine ⟨_, heq, ?_⟩
    obtain ⟨q, -, -⟩ := addMetrics_ok (anyLab P) (rh := 0) trivial [m] st _ hi ⟨r, s, ha, e⟩ (fun _ _ => trivial) heq
    have hk' := hk.grow hi.met q.grow
    have h4 : At (modScope st.out l fun s => { s with items := s.items ++ [m] }) l
        { r with scopes := r.scopes.modify l.2 fun s => { s with items := s.items ++ [m] } } { s with items := s.items ++ [m] } := by
      obtain ⟨h1, h2⟩ := ha
      refine ⟨?_, ?_⟩
      · unfold modScope; rw [getElem?_modify', if_pos rfl, h1]; rfl
      · show (r.scopes.modify l.2 _)[l.2]? = _
        rw [getElem?_modify', if_pos rfl, h2]; rfl
    exact hk'.set (getMetric_of_at (p := (l.1, l.2, s.items.length)) h4 (by simp))
  | some p =>
    rw [hm] at hkk
    obtain ⟨r', s', x, ha', hx, hh⟩ := hi.met _ _ hm
    have hg := getMetric_of_at ha' hx
    simp only [Option.map_some, hg, Option.bind_some] at hkk
    simp only [proc1, Bool.false_eq_true, if_false, hkk]
    by_cases hc : Metric.kind m ≠ none ∧ Metric.kind x ≠ Metric.kind m
    · rw [if_pos hc]
      simp only [addMetrics, hm, hg, mergeMetric_none.2 hc]
    · rw [if_neg hc]
      cases hmm : mergeMetric x m with
      | none => exact absurd (mergeMetric_none.1 hmm) hc
      | some om' =>
        have heq : addMetrics P sh l [m] st = some { st with
            out := modScope st.out (p.1, p.2.1) fun s => { s with items := s.items.set p.2.2 om' } } := by
          simp only [addMetrics, hm, hg, hmm]
        refine ⟨_, heq, ?_⟩
        obtain ⟨q, -, -⟩ := addMetrics_ok (anyLab P) (rh := 0) trivial [m] st _ hi ⟨r, s, ha, e⟩ (fun _ _ => trivial) heq
        exact hk.grow hi.met q.grow

/-- What is known about a state: resources, scopes, kinds of metrics. -/
structure Sim (P : Par) (st : St Metric) (rs ss : List Nat) (reg : Reg) : Prop where
  inv : MInv P st
  res : ∀ rh, rh ∈ st.out.map (hr P) ↔ rh ∈ rs
  sco : ∀ sh, (st.scope.get sh).isSome ↔ sh ∈ ss
  kinds : Kinds st.out st.metrics reg

theorem addMetrics_sim {P : Par} {sh : Nat} {l : Nat × Nat} {rs ss : List Nat} (ms : List Metric) {st : St Metric} {reg : Reg}
    (h : Sim P st rs ss reg) (hat : ∃ r s, At st.out l r s ∧ hs P r s = sh) :
    match proc (arrivalsS P false sh ms) reg with
    | none => addMetrics P sh l ms st = none
    | some reg' => ∃ st', addMetrics P sh l ms st = some st' ∧ Sim P st' rs ss reg' ∧ Grow (Kd.metric P) st.out st'.out := by
  induction ms generalizing st reg with
  | nil => exact ⟨st, rfl, h, Grow.refl _ _⟩
  | cons m ms ih =>
    have h1 := addMetrics_one (m := m) h.inv hat h.kinds
    simp only [arrivalsS, List.map_cons, proc]
    rw [addMetrics_cons]
    cases hp : proc1 reg ⟨false, hashMetric P sh m.name, Metric.kind m⟩ with
    | none => rw [hp] at h1; simp only at h1 ⊢; rw [h1]; rfl
    | some reg1 =>
      rw [hp] at h1
      obtain ⟨st1, e1, k1⟩ := h1
      obtain ⟨q, q2, q3⟩ := addMetrics_ok (anyLab P) (rh := 0) trivial [m] st _ h.inv hat (fun _ _ => trivial) e1
      have hs1 : Sim P st1 rs ss reg1 := ⟨q.inv, fun rh => by rw [q.hrs]; exact h.res rh, fun sh => by rw [q2]; exact h.sco sh, k1⟩
      obtain ⟨r, s, ha, e⟩ := hat
      obtain ⟨r2, s2, ha2, gr, gs⟩ := q.grow.at ha
      have := ih hs1 ⟨r2, s2, ha2, by rw [gs.hs gr]; exact e⟩
      simp only [e1, Option.bind_some]
      change match proc (arrivalsS P false sh ms) reg1 with | none => _ | some _ => _ at this
      change match proc (arrivalsS P false sh ms) reg1 with | none => _ | some _ => _
      cases hq : proc (arrivalsS P false sh ms) reg1 with
      | none => rw [hq] at this; exact this
      | some reg2 =>
        rw [hq] at this
        obtain ⟨st2, e2, s2', g2⟩ := this
        exact ⟨st2, e2, s2', q.grow.trans g2⟩

/-- Taking over the metrics of a scope. -/
theorem regMetrics_kinds {P : Par} {out : List (ResourceG Metric)} {l : Nat × Nat} {r : ResourceG Metric} {s : ScopeG Metric}
    (sh : Nat) (ha : At out l r s) (xs : List Metric) (k : Nat) (m : AMap Nat (Nat × Nat × Nat)) (reg : Reg)
    (h : Kinds out m reg) (hd : s.items.drop k = xs) :
    ∃ reg', proc (arrivalsS P true sh xs) reg = some reg' ∧ Kinds out (regMetrics P sh l k xs m) reg' := by
  induction xs generalizing k m reg with
  | nil => exact ⟨reg, rfl, h⟩
  | cons x xs ih =>
    have hk : s.items[k]? = some x := by
      have := congrArg (fun l => l[0]?) hd
      simpa using this
    have hd' : s.items.drop (k + 1) = xs := by
      have := congrArg (fun l => l.drop 1) hd
      simpa [List.drop_drop, Nat.add_comm] using this
    obtain ⟨reg', h1, h2⟩ := ih (k + 1) _ _ (h.set (k := hashMetric P sh x.name) (getMetric_of_at (p := (l.1, l.2, k)) ha hk)) hd'
    refine ⟨reg', ?_, h2⟩
    simp only [arrivalsS, List.map_cons, proc, proc1, if_true]
    exact h1

theorem regScopes_kinds {P : Par} {i : Nat} {rm : ResourceG Metric} (rest : List (ScopeG Metric)) (known : List Nat) (j : Nat)
    (st : St Metric) (reg : Reg) (hi : st.out[i]? = some rm) (hd : rm.scopes.drop j = rest) (h : Kinds st.out st.metrics reg) :
    ∃ reg', proc (arrivalsR P true rm known rest) reg = some reg' ∧
      Kinds st.out (regScopes P (metricOps P) (hr P rm) i j rest st).metrics reg' := by
  induction rest generalizing known j st reg with
  | nil => exact ⟨reg, rfl, h⟩
  | cons s rest ih =>
    have hj : rm.scopes[j]? = some s := by
      have := congrArg (fun l => l[0]?) hd
      simpa using this
    have hd' : rm.scopes.drop (j + 1) = rest := by
      have := congrArg (fun l => l.drop 1) hd
      simpa [List.drop_drop, Nat.add_comm] using this
    obtain ⟨reg1, h1, h2⟩ := regMetrics_kinds (P := P) (hs P rm s) (l := (i, j)) ⟨hi, hj⟩ s.items 0 st.metrics reg h rfl
    obtain ⟨reg', h3, h4⟩ := ih (hs P rm s :: known) (j + 1) { st with
        scope := st.scope.set (hashScope P (hr P rm) s.schema s.scope) (i, j)
        metrics := (metricOps P).reg (hashScope P (hr P rm) s.schema s.scope) (i, j) s.items st.metrics } reg1 hi hd' h2
    refine ⟨reg', ?_, by unfold regScopes; exact h4⟩
    simp only [arrivalsR, Bool.true_or]
    rw [proc_append, h1]; exact h3

theorem addScopes_cons (P : Par) (rh i : Nat) (sm : ScopeG Metric) (rest : List (ScopeG Metric)) (st : St Metric) :
    addScopes P (metricOps P) rh i (sm :: rest) st = (addScopes P (metricOps P) rh i [sm] st).bind (addScopes P (metricOps P) rh i rest) := by
  cases hg : st.scope.get (hashScope P rh sm.schema sm.scope) with
  | none => simp only [addScopes, hg, Option.bind_some]
  | some l =>
    cases ha : (metricOps P).add (hashScope P rh sm.schema sm.scope) l sm.items st with
    | none => simp only [addScopes, hg, ha, Option.bind_none]
    | some st' => simp only [addScopes, hg, ha, Option.bind_some]

theorem addScopes_one {P : Par} {i : Nat} {rm r0 : ResourceG Metric} {s : ScopeG Metric} {st : St Metric} {rs ss : List Nat} {reg : Reg}
    (h : Sim P st rs ss reg) (hi : st.out[i]? = some r0) (he : hr P r0 = hr P rm) :
    match proc (arrivalsS P (!ss.contains (hs P rm s)) (hs P rm s) s.items) reg with
    | none => addScopes P (metricOps P) (hr P rm) i [s] st = none
    | some reg' => ∃ st', addScopes P (metricOps P) (hr P rm) i [s] st = some st' ∧ Sim P st' rs (hs P rm s :: ss) reg' ∧
        Grow (Kd.metric P) st.out st'.out := by
  have hhs : hs P r0 s = hashScope P (hr P rm) s.schema s.scope := by unfold hs; rw [he]
  have hsh : hs P rm s = hashScope P (hr P rm) s.schema s.scope := rfl
  cases hg : st.scope.get (hs P rm s) with
  | none =>
    have hc : ss.contains (hs P rm s) = false := by
      rw [Bool.eq_false_iff]; intro hc
      have := (h.sco _).2 (List.contains_iff_mem.1 hc)
      rw [hg] at this; cases this
    rw [hc]
    have heq : addScopes P (metricOps P) (hr P rm) i [s] st = some { st with
        out := st.out.modify i fun r => { r with scopes := r.scopes ++ [s] }
        scope := st.scope.set (hs P rm s) (i, r0.scopes.length)
        metrics := (metricOps P).reg (hs P rm s) (i, r0.scopes.length) s.items st.metrics } := by
      simp only [addScopes, ← hsh, hg, hi]
    obtain ⟨q1, q2, q3, -⟩ := addScopes_ok (metric_ok P) (anyLab P) [s] st _ h.inv ⟨r0, hi, he⟩ (fun s _ => ⟨trivial, fun _ _ => trivial⟩) heq
    have hat : At (st.out.modify i fun r => { r with scopes := r.scopes ++ [s] }) (i, r0.scopes.length)
        { r0 with scopes := r0.scopes ++ [s] } s := by
      refine ⟨by rw [getElem?_modify', if_pos rfl, hi]; rfl, by simp⟩
    obtain ⟨reg', h1, h2⟩ := regMetrics_kinds (P := P) (hs P rm s) hat s.items 0 st.metrics reg (h.kinds.grow h.inv.met q1.grow) rfl
    simp only [Bool.not_false]
    rw [h1]
    refine ⟨_, heq, ⟨q1.inv, fun rh => by rw [q2]; exact h.res rh, fun sh => ?_, h2⟩, q1.grow⟩
    simp only
    rw [AMap.get_set]
    by_cases hk : hs P rm s = sh
    · simp [hk]
    · rw [if_neg hk, h.sco, List.mem_cons]
      exact ⟨.inr, fun h => h.resolve_left fun e => hk e.symm⟩
  | some l =>
    have hm : hs P rm s ∈ ss := (h.sco _).1 (by rw [hg]; rfl)
    have hc : ss.contains (hs P rm s) = true := List.contains_iff_mem.2 hm
    rw [hc]
    have := addMetrics_sim (l := l) s.items h (h.inv.scope _ _ hg)
    simp only [Bool.not_true]
    have heq : addScopes P (metricOps P) (hr P rm) i [s] st = addMetrics P (hs P rm s) l s.items st := by
      simp only [addScopes, ← hsh, hg]
      simp only [metricOps]
      cases addMetrics P (hs P rm s) l s.items st <;> rfl
    rw [heq]
    cases hq : proc (arrivalsS P false (hs P rm s) s.items) reg with
    | none => rw [hq] at this; exact this
    | some reg' =>
      rw [hq] at this
      obtain ⟨st', e1, s1, g1⟩ := this
      refine ⟨st', e1, ⟨s1.inv, s1.res, fun sh => ?_, s1.kinds⟩, g1⟩
      rw [s1.sco, List.mem_cons]
      exact ⟨.inr, fun h => h.elim (fun e => e ▸ hm) id⟩

theorem Sim.congr {P : Par} {st : St Metric} {rs ss rs' ss' : List Nat} {reg : Reg} (h : Sim P st rs ss reg) (hr : ∀ x, x ∈ rs ↔ x ∈ rs')
    (hs : ∀ x, x ∈ ss ↔ x ∈ ss') : Sim P st rs' ss' reg :=
  ⟨h.inv, fun x => (h.res x).trans (hr x), fun x => (h.sco x).trans (hs x), h.kinds⟩

theorem addScopes_sim {P : Par} {i : Nat} {rm : ResourceG Metric} {rs : List Nat} (rest : List (ScopeG Metric)) {r0 : ResourceG Metric}
    {st : St Metric} {ss : List Nat} {reg : Reg} (h : Sim P st rs ss reg) (hi : st.out[i]? = some r0) (he : hr P r0 = hr P rm) :
    match proc (arrivalsR P false rm ss rest) reg with
    | none => addScopes P (metricOps P) (hr P rm) i rest st = none
    | some reg' => ∃ st', addScopes P (metricOps P) (hr P rm) i rest st = some st' ∧ Sim P st' rs (rest.map (hs P rm) ++ ss) reg' := by
  induction rest generalizing st ss reg r0 with
  | nil => exact ⟨st, rfl, h⟩
  | cons s rest ih =>
    have h1 := addScopes_one (s := s) h hi he
    rw [addScopes_cons]
    simp only [arrivalsR, Bool.false_or]
    rw [proc_append]
    cases hp : proc (arrivalsS P (!ss.contains (hs P rm s)) (hs P rm s) s.items) reg with
    | none => rw [hp] at h1; simp only at h1; rw [h1]; rfl
    | some reg1 =>
      rw [hp] at h1
      obtain ⟨st1, e1, s1, g1⟩ := h1
      obtain ⟨r1, hi1, gr⟩ := g1 i r0 hi
      have := ih s1 hi1 (by rw [gr.hr]; exact he)
      simp only [Option.bind_some]
      rw [e1]
      simp only [Option.bind_some]
      cases hq : proc (arrivalsR P false rm (hs P rm s :: ss) rest) reg1 with
      | none => rw [hq] at this; exact this
      | some reg2 =>
        rw [hq] at this
        obtain ⟨st2, e2, s2⟩ := this
        exact ⟨st2, e2, s2.congr (fun _ => Iff.rfl) (fun x => by simp [or_left_comm])⟩

theorem addResource_sim {P : Par} {rm : ResourceG Metric} {st : St Metric} {rs ss : List Nat} {reg : Reg} (h : Sim P st rs ss reg) :
    match proc (arrivalsR P (!rs.contains (hr P rm)) rm ss rm.scopes) reg with
    | none => addResource P (metricOps P) rm st = none
    | some reg' => ∃ st', addResource P (metricOps P) rm st = some st' ∧ Sim P st' (hr P rm :: rs) (rm.scopes.map (hs P rm) ++ ss) reg' := by
  cases hg : st.resource.get (hr P rm) with
  | some i =>
    obtain ⟨r0, hi, he⟩ := (h.inv.res _ _).1 hg
    have hm : hr P rm ∈ rs := (h.res _).1 (he ▸ List.mem_map_of_mem (List.mem_of_getElem? hi))
    have hc : rs.contains (hr P rm) = true := List.contains_iff_mem.2 hm
    have := addScopes_sim rm.scopes h hi he
    have heq : addResource P (metricOps P) rm st = addScopes P (metricOps P) (hr P rm) i rm.scopes st := by
      unfold addResource
      simp only
      change (match st.resource.get (hr P rm) with | none => _ | some i => _) = _
      rw [hg]; rfl
    rw [hc, heq]
    simp only [Bool.not_true]
    cases hq : proc (arrivalsR P false rm ss rm.scopes) reg with
    | none => rw [hq] at this; exact this
    | some reg' =>
      rw [hq] at this
      obtain ⟨st', e1, s1⟩ := this
      exact ⟨st', e1, s1.congr (fun x => by simp only [List.mem_cons]; exact ⟨.inr, fun h => h.elim (fun e => e ▸ hm) id⟩) (fun _ => Iff.rfl)⟩
  | none =>
    have hn : hr P rm ∉ st.out.map (hr P) := (order_absent h.inv hg).1
    have hc : rs.contains (hr P rm) = false := by
      rw [Bool.eq_false_iff]; intro hc
      exact hn ((h.res _).2 (List.contains_iff_mem.1 hc))
    have heq : addResource P (metricOps P) rm st = some (regScopes P (metricOps P) (hr P rm) st.out.length 0 rm.scopes
        { st with out := st.out ++ [rm], resource := st.resource.set (hr P rm) st.out.length,
                  order := st.order.set (hr P rm) (st.out.length + 1) }) := by
      unfold addResource
      simp only
      change (match st.resource.get (hr P rm) with | none => _ | some i => _) = _
      rw [hg]; rfl
    rw [hc, heq]
    simp only [Bool.not_false]
    obtain ⟨q1, q2, q3, -⟩ := addResource_ok (metric_ok P) (anyLab P) h.inv (fun s _ => ⟨trivial, fun _ _ => trivial⟩) heq
    obtain ⟨f1, -, -⟩ := regScopes_fixed P (metricOps P) (hr P rm) st.out.length rm.scopes 0
      { st with out := st.out ++ [rm], resource := st.resource.set (hr P rm) st.out.length,
                order := st.order.set (hr P rm) (st.out.length + 1) }
    have hg1 : Grow (Kd.metric P) st.out (st.out ++ [rm]) := by
      intro i r hir
      exact ⟨r, by rw [List.getElem?_append_left (List.getElem?_eq_some_iff.1 hir).1]; exact hir, GrowR.refl _ _⟩
    obtain ⟨reg', h1, h2⟩ := regScopes_kinds (P := P) (i := st.out.length) (rm := rm) rm.scopes ss 0
      { st with out := st.out ++ [rm], resource := st.resource.set (hr P rm) st.out.length,
                order := st.order.set (hr P rm) (st.out.length + 1) } reg (by simp) rfl (h.kinds.grow h.inv.met hg1)
    rw [h1]
    refine ⟨_, rfl, q1.inv, fun rh => ?_, fun sh => ?_, ?_⟩
    · rw [q2, if_neg hn, List.mem_append, h.res, List.mem_singleton, List.mem_cons, or_comm]
    · rw [List.mem_append, ← h.sco]
      by_cases hm : sh ∈ rm.scopes.map (hs P rm)
      · obtain ⟨s, hs', rfl⟩ := List.mem_map.1 hm
        exact iff_of_true (q3 s hs') (.inl hm)
      · rw [regScopes_get_other P (metricOps P) rm _ sh rm.scopes 0 _ hm]
        exact ⟨.inr, fun h => h.resolve_left hm⟩
    · rw [f1]; exact h2

theorem addAll_sim {P : Par} (ds : List (ResourceG Metric)) {st : St Metric} {rs ss : List Nat} {reg : Reg} (h : Sim P st rs ss reg) :
    addAll P (metricOps P) ds st = none ↔ proc (arrivals P rs ss ds) reg = none := by
  induction ds generalizing st rs ss reg with
  | nil => simp [addAll, arrivals, proc]
  | cons rm ds ih =>
    have h1 := addResource_sim (rm := rm) h
    simp only [arrivals, addAll]
    rw [proc_append]
    cases hp : proc (arrivalsR P (!rs.contains (hr P rm)) rm ss rm.scopes) reg with
    | none => rw [hp] at h1; simp only at h1; rw [h1]; simp
    | some reg1 =>
      rw [hp] at h1
      obtain ⟨st1, e1, s1⟩ := h1
      rw [e1]
      simp only [Option.bind_some]
      exact ih s1

theorem sim_empty (P : Par) : Sim P {} [] [] (fun _ => none) :=
  ⟨inv_empty _ _ _, by simp, by simp [AMap.get], fun k => rfl⟩

theorem addAll_clash (P : Par) (ds : List (ResourceG Metric)) : addAll P (metricOps P) ds {} = none ↔ Clash (arrivals P [] [] ds) := by
  rw [addAll_sim ds (sim_empty P), proc_clash]

end Verif.Dt
