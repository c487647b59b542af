import Verif.Spec.RenderWire
import Verif.Model.RenderWire
import Verif.Props.RenderExact
import Verif.Props.WireRender
/-!
# C102: what a script of `rq query` prints as text
-/
namespace Verif.Rd
open Pb (Val)
open Rq (vals)

theorem vals_eq (k : Nat) (v : Val) : vals k v = field k v := by
  cases v with
  | msg fs u =>
    simp only [vals, field, Jn.valuesOf]
    induction fs with
    | nil => rfl
    | cons e r ih =>
      by_cases h : e.1 = k
      · simp [h, ih]
      · simp [h, ih]
  | num _ => rfl
  | nums _ => rfl
  | bytes _ => rfl

theorem noNilAll_iff : ∀ l : List Any, NoNilAll l ↔ ∀ a ∈ l, NoNil a
  | [] => by simp [NoNilAll]
  | a :: l => by simp [NoNilAll, noNilAll_iff l]
theorem noNilPairs_iff : ∀ l : List (Bytes × Any), NoNilPairs l ↔ ∀ p ∈ l, NoNil p.2
  | [] => by simp [NoNilPairs]
  | (k, a) :: l => by simp [NoNilPairs, noNilPairs_iff l]

theorem elemsOf_eq : ∀ fs : List (Nat × Val), elemsOf fs = (Jn.valuesOf fs 1).map any
  | [] => by simp [elemsOf, Jn.valuesOf]
  | (n, v) :: r => by
    have ih := elemsOf_eq r
    simp only [Jn.valuesOf] at ih
    rw [elemsOf]
    by_cases h : n = 1 <;> simp [Jn.valuesOf, h, ih]
theorem pairsOf_eq : ∀ fs : List (Nat × Val), pairsOf fs = (Jn.valuesOf fs 1).map fun kv => (keyOf kv, valueOf kv)
  | [] => by simp [pairsOf, Jn.valuesOf]
  | (n, v) :: r => by
    have ih := pairsOf_eq r
    simp only [Jn.valuesOf] at ih
    rw [pairsOf]
    by_cases h : n = 1 <;> simp [Jn.valuesOf, h, ih]
theorem arrayOf_eq (v : Val) : arrayOf v = (field 1 v).map any := by
  cases v <;> simp [arrayOf, field, elemsOf_eq]
theorem listOf_eq (v : Val) : listOf v = (field 1 v).map fun kv => (keyOf kv, valueOf kv) := by
  cases v <;> simp [listOf, field, pairsOf_eq]
theorem firstOf_eq : ∀ fs : List (Nat × Val), firstOf fs = match (Jn.valuesOf fs 2).head? with | none => .nil | some a => any a
  | [] => by simp [firstOf, Jn.valuesOf]
  | (n, v) :: r => by
    have ih := firstOf_eq r
    simp only [Jn.valuesOf] at ih
    rw [firstOf]
    by_cases h : n = 2
    · simp [Jn.valuesOf, h]
    · simp only [Jn.valuesOf, List.filterMap_cons, h, if_false, ih]
theorem valueOf_eq (v : Val) : valueOf v = match (field 2 v).head? with | none => .nil | some a => any a := by
  cases v <;> simp [valueOf, field, firstOf_eq]

/-- What a value is, by the choice. -/
theorem any_noNil (v : Val) : NoNil (any v) ↔ ∀ n w, choice v = some (n, w) → (n = 5 → ∀ e ∈ field 1 w, NoNil (any e)) ∧ (n = 6 → ∀ kv ∈ field 1 w, NoNil (valueOf kv)) := by
  cases v with
  | msg fs u =>
    simp only [any, choice]
    induction fs with
    | nil => simp [anyOf, NoNil]
    | cons e r ih =>
      obtain ⟨n, w⟩ := e
      rw [anyOf]
      by_cases h : 1 ≤ n ∧ n ≤ 7
      · rw [List.find?_cons_of_pos (by simpa using h)]
        have hn : n = 1 ∨ n = 2 ∨ n = 3 ∨ n = 4 ∨ n = 5 ∨ n = 6 ∨ n = 7 := by omega
        rcases hn with rfl | rfl | rfl | rfl | rfl | rfl | rfl
        all_goals simp [NoNil, arrayOf_eq, listOf_eq, noNilAll_iff, noNilPairs_iff]
      · rw [List.find?_cons_of_neg (by simpa using h)]
        rw [← ih]
        have : n ≠ 1 ∧ n ≠ 2 ∧ n ≠ 3 ∧ n ≠ 4 ∧ n ≠ 5 ∧ n ≠ 6 ∧ n ≠ 7 := by omega
        obtain ⟨h1, h2, h3, h4, h5, h6, h7⟩ := this
        simp only [h1, h2, h3, h4, h5, h6, h7, if_false]
  | num _ => simp [any, choice, NoNil]
  | nums _ => simp [any, choice, NoNil]
  | bytes _ => simp [any, choice, NoNil]

theorem size_field {k : Nat} {v w : Val} (h : w ∈ field k v) : sizeOf w < sizeOf v := by
  cases v with
  | msg fs u =>
    simp only [field, Jn.valuesOf, List.mem_filterMap] at h
    obtain ⟨e, he, h⟩ := h
    split at h
    · cases h
      have := List.sizeOf_lt_of_mem he
      have h2 : sizeOf e = 1 + sizeOf e.1 + sizeOf e.2 := by cases e; rfl
      simp only [Pb.Val.msg.sizeOf_spec]
      omega
    · cases h
  | num _ => cases h
  | nums _ => cases h
  | bytes _ => cases h
theorem size_choice {n : Nat} {v w : Val} (h : choice v = some (n, w)) : sizeOf w < sizeOf v := by
  cases v with
  | msg fs u =>
    have he := List.mem_of_find?_eq_some h
    have := List.sizeOf_lt_of_mem he
    have h2 : sizeOf (n, w) = 1 + sizeOf n + sizeOf w := rfl
    simp only [Pb.Val.msg.sizeOf_spec]
    omega
  | num _ => cases h
  | nums _ => cases h
  | bytes _ => cases h

theorem hole_iff : ∀ (n : Nat) (v : Val), sizeOf v < n → (NoNil (any v) ↔ ¬ Hole false v) ∧ (NoNil (valueOf v) ↔ ¬ Hole true v) := by
  intro n
  induction n with
  | zero => intro v h; omega
  | succ n ih =>
    intro v hv
    constructor
    · rw [any_noNil]
      constructor
      · intro h hh
        cases hh with
        | array hc he hh =>
          have h1 := size_choice hc
          have h2 := size_field he
          exact (ih _ (by omega)).1.1 ((h _ _ hc).1 rfl _ he) hh
        | list hc he hh =>
          have h1 := size_choice hc
          have h2 := size_field he
          exact (ih _ (by omega)).2.1 ((h _ _ hc).2 rfl _ he) hh
      · intro h k w hc
        have h1 := size_choice hc
        refine ⟨fun e x hx => ?_, fun e x hx => ?_⟩
        · subst e
          have h2 := size_field hx
          exact (ih x (by omega)).1.2 fun hh => h (.array hc hx hh)
        · subst e
          have h2 := size_field hx
          exact (ih x (by omega)).2.2 fun hh => h (.list hc hx hh)
    · rw [valueOf_eq]
      cases hf : field 2 v with
      | nil =>
        simp only [List.head?_nil, NoNil, false_iff, not_not]
        exact .missing hf
      | cons a l =>
        have h2 : sizeOf a < sizeOf v := size_field (k := 2) (by rw [hf]; exact List.mem_cons_self)
        simp only [List.head?_cons]
        rw [(ih a (by omega)).1]
        refine not_congr ⟨fun h => .value (by rw [hf]; rfl) h, fun h => ?_⟩
        cases h with
        | missing h' => rw [hf] at h'; cases h'
        | value h' h => rw [hf] at h'; cases h'; exact h

theorem attrs_hole (l : List Val) : ¬ NoNilPairs (attrsOf l) ↔ ∃ kv ∈ l, Hole true kv := by
  rw [noNilPairs_iff]
  simp only [attrsOf, List.mem_map, forall_exists_index, and_imp, forall_apply_eq_imp_iff₂]
  constructor
  · intro h
    by_contra hc
    exact h fun kv hkv => (hole_iff _ kv (Nat.lt_succ_self _)).2.2 fun hh => hc ⟨kv, hkv, hh⟩
  · rintro ⟨kv, hkv, hh⟩ h
    exact (hole_iff _ kv (Nat.lt_succ_self _)).2.1 (h kv hkv) hh


/-- **C102.** Printing metrics that came over the network as text ends the process exactly if an attribute that is printed has no value, or a list inside it has a pair without one. -/
theorem C102_crash (O : Out) (o : Opts) (num : Val → Nat) (v : Val) : metricsData O o (metricsOf num v) = none ↔ ∃ kv, Printed o v kv ∧ Hole true kv := by
  rw [C70_crash_all]
  have hh : ∀ (k : Nat) (l : List Val), field k (l.headD (.msg [] [])) = match l.head? with | none => [] | some i => field k i := by
    intro k l
    cases l <;> rfl
  constructor
  · rintro ⟨l, ⟨rm, hr, h⟩, hl⟩
    unfold metricsOf at hr
    rw [vals_eq] at hr
    obtain ⟨r, hr', rfl⟩ := List.mem_map.1 hr
    rcases h with ⟨ho, rfl⟩ | ⟨sc, hs, h⟩
    · simp only [resourceOf] at hl
      rw [attrs_hole] at hl
      obtain ⟨kv, hkv, hole⟩ := hl
      rw [vals_eq, vals_eq, hh] at hkv
      cases hx : (field 1 r).head? with
      | none => rw [hx] at hkv; cases hkv
      | some res => rw [hx] at hkv; exact ⟨kv, .resource ho hr' hx hkv, hole⟩
    · simp only [resourceOf] at hs
      rw [vals_eq] at hs
      obtain ⟨s, hs', rfl⟩ := List.mem_map.1 hs
      rcases h with ⟨ho, rfl⟩ | ⟨m, hm, pts, hd, p, hp, rfl⟩
      · simp only [scopeOf] at hl
        rw [attrs_hole] at hl
        obtain ⟨kv, hkv, hole⟩ := hl
        rw [vals_eq, vals_eq, hh] at hkv
        cases hx : (field 1 s).head? with
        | none => rw [hx] at hkv; cases hkv
        | some i => rw [hx] at hkv; exact ⟨kv, .scope ho hr' hs' hx hkv, hole⟩
      · simp only [scopeOf] at hm
        rw [vals_eq] at hm
        obtain ⟨m, hm', rfl⟩ := List.mem_map.1 hm
        simp only [metricOf, vals_eq] at hd
        split at hd
        · rename_i g l' h5
          rcases hd with hd | hd
          · cases hd
            obtain ⟨p, hp', rfl⟩ := List.mem_map.1 hp
            simp only [pointOf] at hl
            rw [attrs_hole, vals_eq] at hl
            obtain ⟨kv, hkv, hole⟩ := hl
            exact ⟨kv, .gauge hr' hs' hm' (by rw [h5]; rfl) hp' hkv, hole⟩
          · cases hd
        · rename_i g l' h5 h7
          rcases hd with hd | hd
          · cases hd
          · cases hd
            obtain ⟨p, hp', rfl⟩ := List.mem_map.1 hp
            simp only [pointOf] at hl
            rw [attrs_hole, vals_eq] at hl
            obtain ⟨kv, hkv, hole⟩ := hl
            exact ⟨kv, .sum hr' hs' hm' h5 (by rw [h7]; rfl) hp' hkv, hole⟩
        · rcases hd with hd | hd <;> cases hd
  · rintro ⟨kv, hp, hole⟩
    have memR : ∀ {r}, r ∈ field 1 v → resourceOf num r ∈ metricsOf num v := fun h => by
      unfold metricsOf; rw [vals_eq]; exact List.mem_map_of_mem h
    have memS : ∀ {r s}, s ∈ field 2 r → scopeOf num s ∈ (resourceOf num r).scopes := fun h => by
      simp only [resourceOf]; rw [vals_eq]; exact List.mem_map_of_mem h
    have memM : ∀ {s m}, m ∈ field 2 s → metricOf num m ∈ (scopeOf num s).metrics := fun h => by
      simp only [scopeOf]; rw [vals_eq]; exact List.mem_map_of_mem h
    cases hp with
    | @resource r res _ ho hr hx hkv =>
      refine ⟨_, ⟨_, memR hr, .inl ⟨ho, rfl⟩⟩, ?_⟩
      simp only [resourceOf]
      rw [attrs_hole]
      refine ⟨kv, ?_, hole⟩
      rw [vals_eq, vals_eq, hh, hx]
      exact hkv
    | @scope r s i _ ho hr hs hx hkv =>
      refine ⟨_, ⟨_, memR hr, .inr ⟨_, memS hs, .inl ⟨ho, rfl⟩⟩⟩, ?_⟩
      simp only [scopeOf]
      rw [attrs_hole]
      refine ⟨kv, ?_, hole⟩
      rw [vals_eq, vals_eq, hh, hx]
      exact hkv
    | @gauge r s m g p _ hr hs hm hx hp hkv =>
      refine ⟨_, ⟨_, memR hr, .inr ⟨_, memS hs, .inr ⟨_, memM hm, (field 1 g).map (pointOf num), .inl ?_, pointOf num p, List.mem_map_of_mem hp, rfl⟩⟩⟩, ?_⟩
      · simp only [metricOf, vals_eq]
        split
        · rename_i g' l' h5; rw [h5] at hx; cases hx; rfl
        · rename_i h5 _; rw [h5] at hx; cases hx
        · rename_i h5 _; rw [h5] at hx; cases hx
      · simp only [pointOf]
        rw [attrs_hole, vals_eq]
        exact ⟨kv, hkv, hole⟩
    | @sum r s m g p _ hr hs hm h5 hx hp hkv =>
      refine ⟨_, ⟨_, memR hr, .inr ⟨_, memS hs, .inr ⟨_, memM hm, (field 1 g).map (pointOf num), .inr ?_, pointOf num p, List.mem_map_of_mem hp, rfl⟩⟩⟩, ?_⟩
      · simp only [metricOf, vals_eq]
        rw [h5]
        split
        · rename_i h; cases h
        · rename_i g' l' _ h7; rw [h7] at hx; cases hx; rfl
        · rename_i _ h7; rw [h7] at hx; cases hx
      · simp only [pointOf]
        rw [attrs_hole, vals_eq]
        exact ⟨kv, hkv, hole⟩

end Verif.Rd

namespace Verif.Pk
open Js (Zone)
open Pb (Val otlp Fits)

variable {σ : Type} {D : Dict σ} {z : Zone} {P : Vs.Hashes}

/-- **C102.** When a script at the client prints what it got of a query for metrics as text, the process of the client ends exactly if it got `null` (there are no metrics), or an attribute
that is printed has no value: whatever was exported, flushed, cut off, lost in a crash and restarted before, and whatever else the script does. -/
theorem C102_script (O : Rd.Out) (o : Rd.Opts) (num : Val → Nat) {bw : Nat} (hpos : 0 < bw) {db : KV} (hdb : db Sq.seqKey = none) (st : σ) (ls : List (Sv.Label σ)) {s0 s : Sv.Svc σ}
    {es : List (Sv.Event σ)} (h0 : Sv.init bw st db = some s0) (hrun : Sv.run D bw s0 ls = some (s, es)) (hb : Sv.used bw ls + bw < 2 ^ 64)
    (ho : ∀ fl, .save fl ∈ ls → ∀ m, (fl.viewOrder m).Perm m) (hx : ∀ t d, .call t d ∈ ls → Ex.Sent d)
    (E : St.Env) {server : Rq.GoTime} (hc : server.Near) (hE : E.clock = server.unixNano)
    (ok : z.Ok) (pre post : List (Int × Op)) (ts : Int) (name : Option Bytes)
    (hts : ∀ op ∈ (ts, Op.new .metrics name) :: post, -2 ^ 63 ≤ z.wall op.1 ∧ z.wall op.1 < 2 ^ 63)
    (hn : ∀ n, name = some n → Pb.Utf8 n) (hm : ∀ m ∈ callsOn (made pre) post, MethodOk m.2) {t clock : Int} {w : Value}
    (hw : outcome Un.parseDuration z P (pre ++ (ts, .new .metrics name) :: post) t (.query (made pre) (some (Ex.netScan D s.store E server)) clock) = .value w) :
    ∃ m, IsMessage w m ∧ (renderText O o num w = none ↔ w = .null ∨ ∃ kv, Rd.Printed o m kv ∧ Rd.Hole true kv) := by
  rcases script_at (P := P) hpos hdb st ls h0 hrun hb ho hx E hc hE ok pre post ts name hts hn hm hw with rfl | ⟨rs, rfl, hr⟩
  · exact ⟨_, .inr ⟨rfl, rfl⟩, ⟨fun _ => .inl rfl, fun _ => rfl⟩⟩
  · cases hv : Ex.ofData (.metrics rs) with
    | none => cases hv
    | some p =>
      obtain ⟨k, m⟩ := p
      obtain ⟨-, -, hb⟩ := Ex.ofData_ok hr hv
      obtain rfl : 1 = k := congrArg Prod.fst (Option.some.inj hv)
      refine ⟨m, .inl ⟨rs, rfl, hb⟩, ?_⟩
      simp only [renderText]
      rw [hv]
      exact (Rd.C102_crash O o num m).trans ⟨.inr, fun h => h.resolve_left nofun⟩

/-! ### Cases that meet the hypotheses -/

/-- A gauge with a point whose attribute has no value, or one. -/
def aGauge (value : Option AnyValue) : Data := .metrics [{ scopes := [{ items := [{ name := [109], data := some { kind := .gauge, points := [{ ts := 10, attrs := [⟨[107], value⟩] }] } }] }] }]

theorem aGauge_answerable : Ex.Answerable (aGauge none) := by
  intro r hr
  obtain rfl := List.mem_singleton.1 hr
  refine ⟨Ex.utf8_nil, nofun, fun s hs => ?_⟩
  obtain rfl := List.mem_singleton.1 hs
  refine ⟨Ex.utf8_nil, nofun, fun m hm => ?_⟩
  obtain rfl := List.mem_singleton.1 hm
  have hs : Ex.Short [] := (by decide : (0 : Nat) < 2 ^ 64)
  refine ⟨⟨[⟨109, by decide⟩], by decide +kernel⟩, Ex.rest_nil hs, fun x hx => ?_⟩
  obtain rfl := Option.some.inj hx
  refine ⟨(by decide : (-2 ^ 31 : Int) ≤ 0 ∧ (0 : Int) < 2 ^ 31), fun _ => rfl, nofun, fun p hp => ?_⟩
  obtain rfl := List.mem_singleton.1 hp
  refine ⟨(by decide : (10 : Nat) < 2 ^ 64), fun kv hkv => ?_, Ex.rest_nil hs⟩
  obtain rfl := List.mem_singleton.1 hkv
  exact ⟨⟨[⟨107, by decide⟩], by decide +kernel⟩, nofun⟩

theorem aGauge_sent : Ex.Sent (aGauge none) :=
  Ex.C98_sendable aGauge_answerable (k := 1) rfl (b := [10, 25, 18, 23, 18, 21, 10, 1, 109, 42, 16, 10, 14, 25, 10, 0, 0, 0, 0, 0, 0, 0, 58, 3, 10, 1, 107]) (by decide +kernel) (by decide)

/-- It is exported and flushed. -/
def exportingGauge (value : Option AnyValue) : List (Sv.Label (List Bytes)) := Sv.oneExport 0 (aGauge value) ++ Sv.oneFlush { samples := [], commits := 5 }

/-- Text without tables. -/
def plainOut : Rd.Out := { quote := id, double := fun _ => [], unit := fun _ _ => [], table := id, right := id }

/-- **C102.** An exporter can do this: data that the server accepts and stores ends the process of a client that prints it; with a value
the text is printed. -/
theorem C102_reached : (Sv.init 1000 [] KV.empty).bind (fun s0 => (Sv.run listDict 1000 s0 (exportingGauge none)).map fun r =>
      match outcome Un.parseDuration Zone.utc Vs.xx (askingSum [109]) 1002 (.query 0 (some (Ex.netScan listDict r.1.store St.toyEnv ⟨62135596800, 0⟩)) 1003) with
      | .value w => (w, renderText plainOut {} (fun _ => 0) w)
      | _ => (.null, some [])) = some ((match aGauge none with | .metrics rs => .metrics rs | _ => .null), none) ∧
    (Sv.init 1000 [] KV.empty).bind (fun s0 => (Sv.run listDict 1000 s0 (exportingGauge (some (.str [118])))).map fun r =>
      match outcome Un.parseDuration Zone.utc Vs.xx (askingSum [109]) 1002 (.query 0 (some (Ex.netScan listDict r.1.store St.toyEnv ⟨62135596800, 0⟩)) 1003) with
      | .value w => (renderText plainOut {} (fun _ => 0) w).isSome
      | _ => false) = some true ∧ Ex.Sent (aGauge none) := by
  refine ⟨by decide +kernel, by decide +kernel, aGauge_sent⟩

/-- The hypotheses of `C102_script` for this script. -/
example {s0 s : Sv.Svc (List Bytes)} {es : List (Sv.Event (List Bytes))} (h0 : Sv.init 1000 [] KV.empty = some s0) (hrun : Sv.run listDict 1000 s0 (exportingGauge none) = some (s, es)) :
    ∀ O o num t clock w, outcome Un.parseDuration Zone.utc Vs.xx (askingSum [109]) t (.query 0 (some (Ex.netScan listDict s.store St.toyEnv ⟨62135596800, 0⟩)) clock) = .value w →
      ∃ m, IsMessage w m ∧ (renderText O o num w = none ↔ w = .null ∨ ∃ kv, Rd.Printed o m kv ∧ Rd.Hole true kv) := by
  have hb : Sv.used 1000 (exportingGauge none) + 1000 < 2 ^ 64 := by decide +kernel
  have ho : ∀ fl, Sv.Label.save fl ∈ (exportingGauge none) → ∀ m, (fl.viewOrder m).Perm m := by
    intro fl h
    simp only [exportingGauge, Sv.oneExport, Sv.oneFlush, List.mem_append, List.mem_cons, Sv.Label.save.injEq, List.not_mem_nil, or_false, reduceCtorEq, false_or] at h
    subst h
    exact fun _ => .refl _
  have hx : ∀ t d, Sv.Label.call t d ∈ (exportingGauge none) → Ex.Sent d := by
    intro t d h
    simp only [exportingGauge, Sv.oneExport, Sv.oneFlush, List.mem_append, List.mem_cons, Sv.Label.call.injEq, List.not_mem_nil, or_false, reduceCtorEq] at h
    rcases h with ⟨-, rfl⟩
    exact aGauge_sent
  have ok : Zone.utc.Ok := Js.Zone.fixed_ok (off := 0) (by decide) (by decide)
  have hts : ∀ op ∈ ((500, Op.new .metrics (some [109])) :: (askingSum [109]).tail), -2 ^ 63 ≤ Zone.utc.wall op.1 ∧ Zone.utc.wall op.1 < 2 ^ 63 := by
    intro op hop
    simp only [askingSum, List.tail, List.mem_cons, List.not_mem_nil, or_false] at hop
    rcases hop with rfl | rfl <;> decide
  have hn : ∀ n, some [109] = some n → Pb.Utf8 n := fun n e => by
    obtain rfl := Option.some.inj e
    exact ⟨[⟨109, by decide⟩], by decide +kernel⟩
  have hm : ∀ m ∈ callsOn (made []) (askingSum [109]).tail, MethodOk m.2 := by
    intro m hm
    simp only [askingSum, List.tail, callsOn, made, List.filter_nil, List.length_nil, List.filterMap_cons, if_true, List.filterMap_nil, List.mem_cons, List.not_mem_nil, or_false] at hm
    subst hm
    exact trivial
  exact fun O o num t clock w hw => C102_script O o num (by decide) rfl [] (exportingGauge none) h0 hrun hb ho hx St.toyEnv (server := ⟨62135596800, 0⟩) ⟨by decide, by decide⟩ rfl ok []
    (askingSum [109]).tail 500 (some [109]) hts hn hm hw

/-- Attributes with and without values. -/
example : Rd.Hole true (.msg [(1, .bytes [107])] []) ∧ ¬ Rd.Hole true (.msg [(1, .bytes [107]), (2, .msg [] [])] []) ∧
    Rd.Hole true (.msg [(2, .msg [(5, .msg [(1, .msg [(6, .msg [(1, .msg [] [])] [])] [])] [])] [])] []) := by
  refine ⟨.missing rfl, fun h => ?_, .value rfl (.array rfl (List.mem_singleton.2 rfl) (.list rfl (List.mem_singleton.2 rfl) (.missing rfl)))⟩
  cases h with
  | missing h => cases h
  | value h h' =>
    cases h
    cases h' with
    | array h => cases h
    | list h => cases h

end Verif.Pk
