import Verif.Spec.Confusion
import Verif.Props.Script
import Verif.Model.XxHash
/-!
# C36, C77: merging with a hash that may collide elsewhere
-/
namespace Verif.Dt
open Vs (resAttrs scName scVersion scAttrs)
variable {α : Type}

theorem hr_words (P : Par) (r : ResourceG α) : hr P r = P.H (resWords P r) := by
  unfold hr hashResource resWords
  cases r.resource <;> rfl

theorem hs_words (P : Par) (r : ResourceG α) (s : ScopeG α) : hs P r s = P.H (u64tob (P.H (resWords P r)) ++ scWords P s) := by
  unfold hs hashScope scWords
  rw [hr_words]
  cases s.scope with
  | none => simp [scName, scVersion, scAttrs]
  | some t => simp [scName, scVersion, scAttrs, List.append_assoc]

/-- **C36**: with a 64-bit hash that tells the hashed texts of these payloads apart, two resources are merged only if they read
the same, and two scopes only if they read the same and their resources do. -/
theorem C36_words (P : Par) (h64 : ∀ b, P.H b < 2 ^ 64) {rs : List (ResourceG α)} (hR : NoCollision P (resTexts P rs))
    (hS : NoCollision P (scTexts P rs)) {r r' : ResourceG α} (h : r ∈ rs) (h' : r' ∈ rs) :
    (hr P r = hr P r' ↔ resWords P r = resWords P r') ∧
    ∀ s ∈ r.scopes, ∀ s' ∈ r'.scopes, hs P r s = hs P r' s' ↔ resWords P r = resWords P r' ∧ scWords P s = scWords P s' := by
  have e1 : hr P r = hr P r' ↔ resWords P r = resWords P r' := by
    rw [hr_words, hr_words]
    exact ⟨fun e => hR _ (List.mem_map_of_mem h) _ (List.mem_map_of_mem h') e, fun e => by rw [e]⟩
  refine ⟨e1, fun s hs1 s' hs1' => ?_⟩
  rw [hs_words, hs_words]
  constructor
  · intro e
    have e2 := hS _ (List.mem_flatMap.2 ⟨r, h, List.mem_map_of_mem hs1⟩) _ (List.mem_flatMap.2 ⟨r', h', List.mem_map_of_mem hs1'⟩) e
    obtain ⟨e3, e4⟩ := List.append_inj e2 rfl
    refine ⟨e1.1 ?_, e4⟩
    rw [hr_words, hr_words]
    exact u64tob_inj (h64 _) (h64 _) e3
  · rintro ⟨e3, e4⟩; rw [e3, e4]

/-- **C36**: and two metrics only if their scopes are merged and they have the same name. -/
theorem C36_metric_words (P : Par) (h64 : ∀ b, P.H b < 2 ^ 64) {rs : List (ResourceG Metric)} (hM : NoCollision P (metTexts P rs)) :
    NamesApart P rs := by
  intro r h r' h' s h1 s' h1' m h2 m' h2' e
  have e2 := hM (u64tob (hs P r s) ++ m.name) ?_ (u64tob (hs P r' s') ++ m'.name) ?_ e
  · obtain ⟨e3, e4⟩ := List.append_inj e2 rfl
    refine ⟨?_, e4⟩
    rw [hs_words, hs_words] at e3 ⊢
    exact u64tob_inj (h64 _) (h64 _) e3
  · rw [hs_words]; exact List.mem_flatMap.2 ⟨r, h, List.mem_flatMap.2 ⟨s, h1, List.mem_map_of_mem (f := fun m : Metric => u64tob _ ++ m.name) h2⟩⟩
  · rw [hs_words]; exact List.mem_flatMap.2 ⟨r', h', List.mem_flatMap.2 ⟨s', h1', List.mem_map_of_mem (f := fun m : Metric => u64tob _ ++ m.name) h2'⟩⟩

theorem apart_of_words {P : Par} (h64 : ∀ b, P.H b < 2 ^ 64) {rs : List (ResourceG α)} (hR : NoCollision P (resTexts P rs))
    (hS : NoCollision P (scTexts P rs)) (hw : SpelledApart P rs) : Apart P rs where
  resource := fun r h r' h' e => hw.resource r h r' h' ((C36_words P h64 hR hS h h').1.1 e)
  scope := fun r h r' h' s h1 s' h1' e => by
    obtain ⟨e1, e2⟩ := ((C36_words P h64 hR hS h h').2 s h1 s' h1').1 e
    exact ⟨(C36_words P h64 hR hS h h').1.2 e1, hw.scope r h r' h' s h1 s' h1' e2⟩

/-- **C36**, **C77**: with a 64-bit hash that does not collide on the texts hashed for the payloads, and payloads whose groups
differ when their fields are run together, merging confuses nothing. -/
theorem C36_unconfused (P : Par) (h64 : ∀ b, P.H b < 2 ^ 64) {ds : List Data} (h : Distinct P ds) : Unconfused P ds where
  logs := apart_of_words h64 h.logs.1 h.logs.2.1 h.logs.2.2
  traces := apart_of_words h64 h.traces.1 h.traces.2.1 h.traces.2.2
  metrics := apart_of_words h64 h.metrics.1 h.metrics.2.1 h.metrics.2.2.2
  names := C36_metric_words P h64 h.metrics.2.2.1

end Verif.Dt

namespace Verif.Xx

/-- xxHash64 gives 64-bit numbers, however the digest started. -/
theorem sum_lt (a : Acc) (b : Bytes) : sum a b < 2 ^ 64 := by
  unfold sum avalanche
  refine Nat.xor_lt_two_pow (Nat.mod_lt _ (by decide)) ?_
  exact Nat.lt_of_le_of_lt (Nat.shiftRight_le _ _) (Nat.mod_lt _ (by decide))

end Verif.Xx

namespace Verif.Sv
open Cache Tr
variable {hash : Bytes → Nat} {c : Config} {K : List Bytes} {bw : Nat} {st : CState} {ls : List (Label CState)} {s : Svc CState} {es : List (Event CState)}

open Classical in
/-- **C77**, with xxHash64 or any other 64-bit hash: as `C77_straight`, where the hash does not collide on the texts hashed for the
filed payloads, and their resources and scopes differ when their fields are run together. -/
theorem C77_distinct (h : FirstLife hash c K bw st ls s es) (E : St.Env) (hE : E.Fair) (hF : E.NoFaults) (sc : St.Scan)
    (hscope : sc.scope = Res.metrics ∨ sc.scope = Res.logs ∨ sc.scope = Res.traces) (hsc : Vs.StraightScan sc) (hr : sc.time.range.isSome)
    (ha : ∀ v ∈ E.views sc, AlignedData (ackedOf es) v) (hone : ∀ d ∈ filedOf (ackedOf es) E sc, d.OneView (E.views sc))
    (h64 : ∀ b, E.P.H b < 2 ^ 64) (hu : Dt.Distinct E.P (filedOf (ackedOf es) E sc))
    (P : Vs.Hashes) (hfa : ∀ d ∈ filedOf (ackedOf es) E sc, Vs.Faithful P sc.filters d)
    (hk : Dt.SameKinds E.P ((filedOf (ackedOf es) E sc).flatMap Dt.metricsOf)) (hn : ∀ d ∈ filedOf (ackedOf es) E sc, Vs.NoNil d) (clock : Int) :
    ∃ out, Js.queryScan P (St.scan (realDict hash c K) s.store E) clock sc = .data (some out) ∧
      ((Vs.lines out).map Vs.Line.bare).Perm ((((filedOf (ackedOf es) E sc).flatMap Vs.lines).filter fun l =>
        decide (l.Ok (Vs.intended sc.filters) (Js.toUint64 (Tm.timeBounds clock sc.time).1) (Js.toUint64 (Tm.timeBounds clock sc.time).2))).map Vs.Line.bare) :=
  C77_straight h E hE hF sc hscope hsc hr ha hone (Dt.C36_unconfused E.P h64 hu) P hfa hk hn clock

end Verif.Sv

/-! ### The hypotheses hold of a concrete case, with the real hash -/

namespace Verif.Dt

/-- xxHash64; attributes written as their keys. -/
def xxPar : Par := ⟨Xx.sum64, fun kv => kv.key⟩

private instance {α : Type} (P : Par) (rs : List (ResourceG α)) : Decidable (NoCollision P (resTexts P rs)) := by unfold NoCollision; infer_instance
private instance (T : List Bytes) : Decidable (NoCollision xxPar T) := by unfold NoCollision; infer_instance

private def twoScopes : List Data :=
  [.metrics [{ scopes := [{ scope := some { name := [97] }, items := [{ name := [99], data := none }] },
                          { scope := some { name := [98], version := [49] }, items := [{ name := [99], data := none }, { name := [100], data := none }] }] }],
   .metrics [{ schema := [117], scopes := [{ scope := some { name := [97] }, items := [{ name := [99], data := none }] }] }],
   .logs [{ scopes := [{ scope := some { name := [97] }, items := [{ ts := 1 }] }] }]]

/-- Two resources, two scopes, four metrics: told apart by xxHash64. -/
theorem twoScopes_distinct : Distinct xxPar twoScopes where
  logs := ⟨by decide +kernel, by decide +kernel, by
    constructor
    · decide +kernel
    · decide +kernel⟩
  traces := ⟨by decide +kernel, by decide +kernel, by
    constructor
    · decide +kernel
    · decide +kernel⟩
  metrics := ⟨by decide +kernel, by decide +kernel, by decide +kernel, by
    constructor
    · decide +kernel
    · decide +kernel⟩

example : Unconfused xxPar twoScopes := C36_unconfused xxPar (Xx.sum_lt _) twoScopes_distinct

end Verif.Dt

namespace Verif.Dt

/-- And so do those of the run of `toy_script`. -/
example : (∀ b, St.toyEnv.P.H b < 2 ^ 64) ∧ Distinct St.toyEnv.P [St.logAt 5 [97], St.logAt 7 [98]] := by
  refine ⟨fun b => Nat.lt_of_lt_of_le (Nat.mod_lt _ (by decide)) (by decide), ⟨?_, ?_, ?_⟩, ⟨nofun, nofun, nofun, nofun⟩,
    nofun, nofun, nofun, nofun, nofun⟩
  · unfold NoCollision; decide +kernel
  · unfold NoCollision; decide +kernel
  · constructor
    · decide +kernel
    · decide +kernel

end Verif.Dt
