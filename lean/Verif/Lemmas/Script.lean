import Verif.Spec.Script
import Verif.Lemmas.Merge
import Verif.Lemmas.EndToEnd
/-!
# Merging payloads keeps lines
-/
namespace Verif.Dt
open Vs (Line Rec Entry resAttrs scName scVersion scAttrs entriesOf)
variable {α β ι : Type}

/-- What a resource says. -/
def metaR (r : ResourceG α) : Bytes × List KeyValue := (r.schema, resAttrs r.resource)
/-- What a scope says. -/
def metaS (s : ScopeG α) : Bytes × Bytes × Bytes × List KeyValue := (s.schema, scName s.scope, scVersion s.scope, scAttrs s.scope)

/-- Comes from the inputs. -/
def PRin (ins : List (ResourceG α)) (u : Bytes) (r : Option Resource) : Prop := ∃ r0 ∈ ins, r0.schema = u ∧ r0.resource = r
def PSin (P : Par) (ins : List (ResourceG α)) (rh : Nat) (v : Bytes) (s : Option InstrScope) : Prop :=
  ∃ r0 ∈ ins, hr P r0 = rh ∧ ∃ s0 ∈ r0.scopes, s0.schema = v ∧ s0.scope = s
def PIin (ins : List (ResourceG α)) (x : α) : Prop := ∃ r0 ∈ ins, ∃ s0 ∈ r0.scopes, x ∈ s0.items
def PMin (ins : List (ResourceG Metric)) (m : Metric) : Prop :=
  (∃ r0 ∈ ins, ∃ s0 ∈ r0.scopes, ∃ m0 ∈ s0.items, m0.name = m.name) ∧
  ∀ d, m.data = some d → ∀ p ∈ d.points, ∃ r0 ∈ ins, ∃ s0 ∈ r0.scopes, ∃ m0 ∈ s0.items, ∃ d0, m0.data = some d0 ∧ p ∈ d0.points

theorem plain_in (P : Par) (ins : List (ResourceG α)) : From P (PRin ins) (PSin P ins) (PIin ins) ins :=
  fun r h => ⟨⟨r, h, rfl, rfl⟩, fun s hs' => ⟨⟨r, h, rfl, s, hs', rfl, rfl⟩, fun _ hx => ⟨r, h, s, hs', hx⟩⟩⟩

theorem metric_in (P : Par) (ins : List (ResourceG Metric)) : From P (PRin ins) (PSin P ins) (PMin ins) ins :=
  fun r h => ⟨⟨r, h, rfl, rfl⟩, fun s hs' => ⟨⟨r, h, rfl, s, hs', rfl, rfl⟩, fun m hx =>
    ⟨⟨r, h, s, hs', m, hx, rfl⟩, fun d hd p hp => ⟨r, h, s, hs', m, hx, d, hd, hp⟩⟩⟩⟩

theorem merge_in (ins : List (ResourceG Metric)) (a b c : Metric) (ha : PMin ins a) (hb : PMin ins b) (h : mergeMetric a b = some c) : PMin ins c := by
  unfold mergeMetric at h
  cases hd : b.data with
  | none => rw [hd] at h; cases h; exact ha
  | some d =>
    rw [hd] at h
    cases hod : a.data with
    | none => rw [hod] at h; cases h
    | some od =>
      rw [hod] at h
      simp only at h
      by_cases hk : od.kind = d.kind
      · rw [if_pos hk, Option.some.injEq] at h
        subst h
        refine ⟨ha.1, fun d' hd' p hp => ?_⟩
        cases hd'
        rcases List.mem_append.1 hp with hp | hp
        · exact ha.2 od hod p hp
        · exact hb.2 d hd p hp
      · rw [if_neg hk] at h; cases h

section
variable {P : Par} {ins : List (ResourceG α)}

open Classical in
/-- What resources with this hash say. -/
noncomputable def sayR (P : Par) (ins : List (ResourceG α)) (rh : Nat) : Bytes × List KeyValue :=
  if h : ∃ r ∈ ins, hr P r = rh then metaR h.choose else ([], [])
open Classical in
/-- What scopes with this hash say. -/
noncomputable def sayS (P : Par) (ins : List (ResourceG α)) (sh : Nat) : Bytes × Bytes × Bytes × List KeyValue :=
  if h : ∃ s : ScopeG α, ∃ r ∈ ins, s ∈ r.scopes ∧ hs P r s = sh then metaS h.choose else ([], [], [], [])

theorem sayR_eq (ha : Apart P ins) {r : ResourceG α} (hr' : r ∈ ins) : sayR P ins (hr P r) = metaR r := by
  have h : ∃ r' ∈ ins, hr P r' = hr P r := ⟨r, hr', rfl⟩
  unfold sayR
  rw [dif_pos h]
  obtain ⟨h1, h2⟩ := ha.resource _ h.choose_spec.1 r hr' h.choose_spec.2
  unfold metaR; rw [h1, h2]

theorem sayS_eq (ha : Apart P ins) {r : ResourceG α} (hr' : r ∈ ins) {s : ScopeG α} (hs' : s ∈ r.scopes) : sayS P ins (hs P r s) = metaS s := by
  have h : ∃ s' : ScopeG α, ∃ r' ∈ ins, s' ∈ r'.scopes ∧ hs P r' s' = hs P r s := ⟨s, r, hr', hs', rfl⟩
  unfold sayS
  rw [dif_pos h]
  obtain ⟨r', g1, g2, g3⟩ := h.choose_spec
  obtain ⟨-, h1, h2, h3, h4⟩ := ha.scope r' g1 r hr' _ g2 s hs' g3
  unfold metaS; rw [h1, h2, h3, h4]

/-- In the merged payload hashes still tell what resources and scopes say. -/
theorem say_out {PI : α → Prop} {out : List (ResourceG α)} (ha : Apart P ins) (h : From P (PRin ins) (PSin P ins) PI out) :
    ∀ r ∈ out, sayR P ins (hr P r) = metaR r ∧ ∀ s ∈ r.scopes, sayS P ins (hs P r s) = metaS s := by
  intro r hr'
  obtain ⟨⟨r0, h0, e1, e2⟩, h2⟩ := h r hr'
  have e : hr P r0 = hr P r := by unfold hr; rw [e1, e2]
  refine ⟨by rw [← e, sayR_eq ha h0]; unfold metaR; rw [e1, e2], fun s hs' => ?_⟩
  obtain ⟨⟨r1, g1, e3, s1, g2, e4, e5⟩, -⟩ := h2 s hs'
  have e' : hs P r1 s1 = hs P r s := by unfold hs; rw [e3, e4, e5]
  rw [← e', sayS_eq ha g1 g2]
  unfold metaS; rw [e4, e5]

theorem apart_scopes {ds : List (List (ResourceG α))} (h : Apart P ds.flatten) : ScopesApart P ds.flatten :=
  fun r h1 r' h2 s h3 s' h4 e => (h.scope r h1 r' h2 s h3 s' h4 e).1

/-- A line from what the hashes say and the record. -/
def lineOf (R : Bytes × List KeyValue) (S : Bytes × Bytes × Bytes × List KeyValue) (x : Rec) : Line := ⟨R.1, R.2, S.1, S.2.1, S.2.2.1, S.2.2.2, x⟩

theorem lines_plain (rec : α → Rec) {out : List (ResourceG α)}
    (h : ∀ r ∈ out, sayR P ins (hr P r) = metaR r ∧ ∀ s ∈ r.scopes, sayS P ins (hs P r s) = metaS s) :
    (entriesOf (fun x => [rec x]) out).map Entry.line = (records P out).map fun x => lineOf (sayR P ins x.1) (sayS P ins x.2.1) (rec x.2.2) := by
  unfold entriesOf records
  rw [List.map_flatMap, List.map_flatMap]
  refine List.flatMap_congr fun r hr' => ?_
  obtain ⟨h1, h2⟩ := h r hr'
  rw [List.map_flatMap, List.map_flatMap]
  refine List.flatMap_congr fun s hs' => ?_
  rw [List.map_flatMap, List.map_map]
  have h3 := h2 s hs'
  simp only [List.map_cons, List.map_nil, Function.comp_def, h1, h3]
  induction s.items with
  | nil => rfl
  | cons x l ih => rw [List.flatMap_cons, ih]; rfl

end

theorem plain_lines {P : Par} (rec : α → Rec) {perm : AMap Nat Nat → AMap Nat Nat} (hperm : ∀ m, (perm m).Perm m) {ds : List (List (ResourceG α))}
    {out : List (ResourceG α)} (ha : Apart P ds.flatten) (h : collapseG P (plainOps α) perm (ds.map some) = some out) :
    ((entriesOf (fun x => [rec x]) out).map Entry.line).Perm ((entriesOf (fun x => [rec x]) ds.flatten).map Entry.line) ∧
    From P (PRin ds.flatten) (PSin P ds.flatten) (PIin ds.flatten) out := by
  have hf := collapseG_from (plain_ok P α) (plain_from P (PIin ds.flatten)) hperm (plain_in P _) h
  refine ⟨?_, hf⟩
  rw [lines_plain rec (say_out ha hf), lines_plain rec (say_out ha (plain_in P _))]
  refine List.Perm.map _ ?_
  obtain ⟨h1, -⟩ := collapseG_ok (plain_ok P _) hperm h
  have := h1 _ (lab_plain (apart_scopes ha))
  rw [recs_plain, recs_plain] at this
  exact perm_of_map_inj (fun x => (x.1.1, x.1.2, x.2)) (fun _ => rfl) this

/-! ### Metrics -/

section
variable {P : Par} {ins : List (ResourceG Metric)}

open Classical in
/-- The name of metrics with this hash. -/
noncomputable def sayN (P : Par) (ins : List (ResourceG Metric)) (mh : Nat) : Bytes :=
  if h : ∃ m : Metric, ∃ r ∈ ins, ∃ s ∈ r.scopes, m ∈ s.items ∧ hashMetric P (hs P r s) m.name = mh then h.choose.name else []

theorem sayN_eq (hn : NamesApart P ins) {r : ResourceG Metric} (hr' : r ∈ ins) {s : ScopeG Metric} (hs' : s ∈ r.scopes) {m : Metric} (hm : m ∈ s.items) :
    sayN P ins (hashMetric P (hs P r s) m.name) = m.name := by
  have h : ∃ m' : Metric, ∃ r' ∈ ins, ∃ s' ∈ r'.scopes, m' ∈ s'.items ∧ hashMetric P (hs P r' s') m'.name = hashMetric P (hs P r s) m.name := ⟨m, r, hr', s, hs', hm, rfl⟩
  unfold sayN
  rw [dif_pos h]
  obtain ⟨r', g1, s', g2, g3, g4⟩ := h.choose_spec
  exact (hn r' g1 r hr' s' g2 s hs' _ g3 m hm g4).2

/-- The points of a metric, with its name. -/
def metricRecs (m : Metric) : List Rec := match m.data with | none => [] | some d => d.points.map fun p => .point m.name d.kind p

theorem lines_metric {out : List (ResourceG Metric)}
    (h : ∀ r ∈ out, sayR P ins (hr P r) = metaR r ∧ ∀ s ∈ r.scopes, sayS P ins (hs P r s) = metaS s)
    (hn : ∀ r ∈ out, ∀ s ∈ r.scopes, ∀ m ∈ s.items, sayN P ins (hashMetric P (hs P r s) m.name) = m.name) :
    (entriesOf metricRecs out).map Entry.line =
      (points P out).map fun x => lineOf (sayR P ins x.1) (sayS P ins x.2.1) (.point (sayN P ins x.2.2.1) x.2.2.2.1 x.2.2.2.2) := by
  unfold entriesOf points
  rw [List.map_flatMap, List.map_flatMap]
  refine List.flatMap_congr fun r hr' => ?_
  obtain ⟨h1, h2⟩ := h r hr'
  rw [List.map_flatMap, List.map_flatMap]
  refine List.flatMap_congr fun s hs' => ?_
  rw [List.map_flatMap, List.map_flatMap]
  refine List.flatMap_congr fun m hm => ?_
  have h3 := h2 s hs'
  have h4 := hn r hr' s hs' m hm
  unfold metricRecs Metric.points
  cases m.data with
  | none => rfl
  | some d => simp only [List.map_map, Function.comp_def, h1, h3, h4]; rfl

end

theorem metric_lines {P : Par} {perm : AMap Nat Nat → AMap Nat Nat} (hperm : ∀ m, (perm m).Perm m) {ds : List (List (ResourceG Metric))}
    {out : List (ResourceG Metric)} (ha : Apart P ds.flatten) (hn : NamesApart P ds.flatten) (h : collapseG P (metricOps P) perm (ds.map some) = some out) :
    ((entriesOf metricRecs out).map Entry.line).Perm ((entriesOf metricRecs ds.flatten).map Entry.line) ∧
    From P (PRin ds.flatten) (PSin P ds.flatten) (PMin ds.flatten) out := by
  have hf := collapseG_from (metric_ok P) (metric_from P (PMin ds.flatten) (merge_in _)) hperm (metric_in P _) h
  refine ⟨?_, hf⟩
  obtain ⟨h1, -, h2, -⟩ := collapseG_ok (metric_ok P) hperm h
  rw [lines_metric (say_out ha hf) fun r hr' s hs' m hm => by
      obtain ⟨r0, g1, s0, g2, m0, g3, e1, e2⟩ := (h2 r hr' s hs').2 m hm
      have : m0.name = m.name := congrArg Prod.fst e2
      rw [← e1, ← this, sayN_eq hn g1 g2 g3],
    lines_metric (say_out ha (metric_in P _)) fun r hr' s hs' m hm => sayN_eq hn hr' hs' hm]
  refine List.Perm.map _ ?_
  have := h1 _ (lab_metric (apart_scopes ha) fun r a1 r' a2 s a3 s' a4 m a5 m' a6 e => (hn r a1 r' a2 s a3 s' a4 m a5 m' a6 e).1)
  rw [recs_metric, recs_metric] at this
  exact perm_of_map_inj (fun x => (x.1.1, x.1.2.1, x.1.2.2, x.2)) (fun _ => rfl) this

end Verif.Dt
