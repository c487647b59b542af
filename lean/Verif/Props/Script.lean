import Verif.Lemmas.Script
import Verif.Props.FirstLife
import Verif.Props.JsExact
import Verif.Props.Filter
/-!
# C77: what a script gets is what was exported
-/
namespace Verif.Dt
open Vs (Line Rec Entry resAttrs scName scVersion scAttrs entriesOf HasText HasAttr GroupText GroupAttr)
variable {α : Type}

theorem flatMap_entries {recs : α → List Rec} (ds : List (List (ResourceG α))) :
    (entriesOf recs ds.flatten).map Entry.line = ds.flatMap fun rs => (entriesOf recs rs).map Entry.line := by
  induction ds with
  | nil => rfl
  | cons d ds ih =>
    rw [List.flatten_cons, List.flatMap_cons, ← ih, ← List.map_append]
    congr 1
    unfold entriesOf
    rw [List.flatMap_append]

theorem text_plain {P : Par} {item : α → Bytes → Prop} {ins out : List (ResourceG α)} (h : From P (PRin ins) (PSin P ins) (PIin ins) out) {t : Bytes}
    (ht : GroupText item out t) : GroupText item ins t := by
  obtain ⟨r, hr', ht⟩ := ht
  obtain ⟨⟨r0, h0, e1, e2⟩, h2⟩ := h r hr'
  rcases ht with rfl | ⟨s, hs', ht⟩
  · exact ⟨r0, h0, .inl e1.symm⟩
  · obtain ⟨⟨r1, g1, -, s1, g2, e4, e5⟩, h3⟩ := h2 s hs'
    rcases ht with rfl | rfl | rfl | ⟨x, hx, ht⟩
    · exact ⟨r1, g1, .inr ⟨s1, g2, .inl e4.symm⟩⟩
    · exact ⟨r1, g1, .inr ⟨s1, g2, .inr (.inl (by rw [e5]))⟩⟩
    · exact ⟨r1, g1, .inr ⟨s1, g2, .inr (.inr (.inl (by rw [e5])))⟩⟩
    · obtain ⟨r2, k1, s2, k2, k3⟩ := h3 x hx
      exact ⟨r2, k1, .inr ⟨s2, k2, .inr (.inr (.inr ⟨x, k3, ht⟩))⟩⟩

theorem attr_plain {P : Par} {item : α → KeyValue → Prop} {ins out : List (ResourceG α)} (h : From P (PRin ins) (PSin P ins) (PIin ins) out) {t : KeyValue}
    (ht : GroupAttr item out t) : GroupAttr item ins t := by
  obtain ⟨r, hr', ht⟩ := ht
  obtain ⟨⟨r0, h0, e1, e2⟩, h2⟩ := h r hr'
  rcases ht with ht | ⟨s, hs', ht⟩
  · exact ⟨r0, h0, .inl (by rw [e2]; exact ht)⟩
  · obtain ⟨⟨r1, g1, -, s1, g2, e4, e5⟩, h3⟩ := h2 s hs'
    rcases ht with ht | ⟨x, hx, ht⟩
    · exact ⟨r1, g1, .inr ⟨s1, g2, .inl (by rw [e5]; exact ht)⟩⟩
    · obtain ⟨r2, k1, s2, k2, k3⟩ := h3 x hx
      exact ⟨r2, k1, .inr ⟨s2, k2, .inr ⟨x, k3, ht⟩⟩⟩

theorem text_metric {P : Par} {ins out : List (ResourceG Metric)} (h : From P (PRin ins) (PSin P ins) (PMin ins) out) {t : Bytes}
    (ht : GroupText (fun m t => t = m.name) out t) : GroupText (fun m t => t = m.name) ins t := by
  obtain ⟨r, hr', ht⟩ := ht
  obtain ⟨⟨r0, h0, e1, e2⟩, h2⟩ := h r hr'
  rcases ht with rfl | ⟨s, hs', ht⟩
  · exact ⟨r0, h0, .inl e1.symm⟩
  · obtain ⟨⟨r1, g1, -, s1, g2, e4, e5⟩, h3⟩ := h2 s hs'
    rcases ht with rfl | rfl | rfl | ⟨x, hx, ht⟩
    · exact ⟨r1, g1, .inr ⟨s1, g2, .inl e4.symm⟩⟩
    · exact ⟨r1, g1, .inr ⟨s1, g2, .inr (.inl (by rw [e5]))⟩⟩
    · exact ⟨r1, g1, .inr ⟨s1, g2, .inr (.inr (.inl (by rw [e5])))⟩⟩
    · obtain ⟨⟨r2, k1, s2, k2, m2, k3, k4⟩, -⟩ := h3 x hx
      exact ⟨r2, k1, .inr ⟨s2, k2, .inr (.inr (.inr ⟨m2, k3, ht.trans k4.symm⟩))⟩⟩

theorem attr_metric {P : Par} {ins out : List (ResourceG Metric)} (h : From P (PRin ins) (PSin P ins) (PMin ins) out) {t : KeyValue}
    (ht : GroupAttr (fun m kv => ∃ d, m.data = some d ∧ ∃ p ∈ d.points, kv ∈ p.attrs) out t) :
    GroupAttr (fun m kv => ∃ d, m.data = some d ∧ ∃ p ∈ d.points, kv ∈ p.attrs) ins t := by
  obtain ⟨r, hr', ht⟩ := ht
  obtain ⟨⟨r0, h0, e1, e2⟩, h2⟩ := h r hr'
  rcases ht with ht | ⟨s, hs', ht⟩
  · exact ⟨r0, h0, .inl (by rw [e2]; exact ht)⟩
  · obtain ⟨⟨r1, g1, -, s1, g2, e4, e5⟩, h3⟩ := h2 s hs'
    rcases ht with ht | ⟨x, hx, d, hd, p, hp, hk⟩
    · exact ⟨r1, g1, .inr ⟨s1, g2, .inl (by rw [e5]; exact ht)⟩⟩
    · obtain ⟨-, h4⟩ := h3 x hx
      obtain ⟨r2, k1, s2, k2, m2, k3, d2, k4, k5⟩ := h4 d hd p hp
      exact ⟨r2, k1, .inr ⟨s2, k2, .inr ⟨m2, k3, d2, k4, p, k5, hk⟩⟩⟩

theorem text_flatten {item : α → Bytes → Prop} {ds : List (List (ResourceG α))} {t : Bytes} (h : GroupText item ds.flatten t) : ∃ rs ∈ ds, GroupText item rs t := by
  obtain ⟨r, hr', ht⟩ := h
  obtain ⟨rs, h1, h2⟩ := List.mem_flatten.1 hr'
  exact ⟨rs, h1, r, h2, ht⟩

theorem attr_flatten {item : α → KeyValue → Prop} {ds : List (List (ResourceG α))} {t : KeyValue} (h : GroupAttr item ds.flatten t) : ∃ rs ∈ ds, GroupAttr item rs t := by
  obtain ⟨r, hr', ht⟩ := h
  obtain ⟨rs, h1, h2⟩ := List.mem_flatten.1 hr'
  exact ⟨rs, h1, r, h2, ht⟩

theorem logsOf_map (ds : List (List (ResourceG LogRecord))) : (ds.map Data.logs).flatMap logsOf = ds.flatten := by
  rw [List.flatMap_map]; simp [logsOf, List.flatMap_def]
theorem tracesOf_map (ds : List (List (ResourceG Span))) : (ds.map Data.traces).flatMap tracesOf = ds.flatten := by
  rw [List.flatMap_map]; simp [tracesOf, List.flatMap_def]
theorem metricsOf_map (ds : List (List (ResourceG Metric))) : (ds.map Data.metrics).flatMap metricsOf = ds.flatten := by
  rw [List.flatMap_map]; simp [metricsOf, List.flatMap_def]

/-- **C77**, merging. If payloads of one signal are merged and no two of their resources, scopes or metrics are confused, the
result has the lines of all the payloads: every log record, span or data point once, with what its own resource and scope said.
No text and no attribute is made up. -/
theorem C77_merge (P : Par) (perm : AMap Nat Nat → AMap Nat Nat) (hperm : ∀ m, (perm m).Perm m) {scope : Int} {ds : List Data} {out : Data}
    (hscope : scope = Res.metrics ∨ scope = Res.logs ∨ scope = Res.traces) (hs : ∀ d ∈ ds, d.signal = some scope) (hu : Unconfused P ds)
    (h : collapse P perm ds = some (some out)) :
    (Vs.lines out).Perm (ds.flatMap Vs.lines) ∧
    (∀ t, HasText out t → ∃ d ∈ ds, HasText d t) ∧ ∀ kv, HasAttr out kv → ∃ d ∈ ds, HasAttr d kv := by
  match ds, hs, hu, h with
  | [d], _, _, h =>
    cases h
    exact ⟨by simp, fun t ht => ⟨_, by simp, ht⟩, fun t ht => ⟨_, by simp, ht⟩⟩
  | d1 :: d2 :: l, hs, hu, h =>
    generalize hds : d1 :: d2 :: l = ds at *
    have hlen : 2 ≤ ds.length := by rw [← hds]; simp
    rcases hscope with rfl | rfl | rfl
    · obtain ⟨rs, rfl⟩ := St.all_metrics hs
      rw [collapse_metrics P perm (by simpa using hlen)] at h
      cases hc : collapseG P (metricOps P) perm (rs.map some) with
      | none => rw [hc] at h; cases h
      | some o =>
        rw [hc] at h
        cases h
        have ha := hu.metrics
        have hn := hu.names
        rw [metricsOf_map] at ha hn
        obtain ⟨h1, h2⟩ := metric_lines hperm ha hn hc
        rw [flatMap_entries] at h1
        refine ⟨?_, fun t ht => ?_, fun t ht => ?_⟩
        · rw [List.flatMap_map]; exact h1
        · obtain ⟨x, hx, ht⟩ := text_flatten (text_metric h2 ht)
          exact ⟨_, List.mem_map_of_mem hx, ht⟩
        · obtain ⟨x, hx, ht⟩ := attr_flatten (attr_metric h2 ht)
          exact ⟨_, List.mem_map_of_mem hx, ht⟩
    · obtain ⟨rs, rfl⟩ := St.all_logs hs
      rw [collapse_logs P perm (by simpa using hlen)] at h
      cases hc : collapseG P (plainOps LogRecord) perm (rs.map some) with
      | none => rw [hc] at h; cases h
      | some o =>
        rw [hc] at h
        cases h
        have ha := hu.logs
        rw [logsOf_map] at ha
        obtain ⟨h1, h2⟩ := plain_lines (.log ·) hperm ha hc
        rw [flatMap_entries] at h1
        refine ⟨?_, fun t ht => ?_, fun t ht => ?_⟩
        · rw [List.flatMap_map]; exact h1
        · obtain ⟨x, hx, ht⟩ := text_flatten (text_plain (item := fun (x : LogRecord) t => t = x.severity) h2 ht)
          exact ⟨_, List.mem_map_of_mem hx, ht⟩
        · obtain ⟨x, hx, ht⟩ := attr_flatten (attr_plain (item := fun (x : LogRecord) kv => kv ∈ x.attrs) h2 ht)
          exact ⟨_, List.mem_map_of_mem hx, ht⟩
    · obtain ⟨rs, rfl⟩ := St.all_traces hs
      rw [collapse_traces P perm (by simpa using hlen)] at h
      cases hc : collapseG P (plainOps Span) perm (rs.map some) with
      | none => rw [hc] at h; cases h
      | some o =>
        rw [hc] at h
        cases h
        have ha := hu.traces
        rw [tracesOf_map] at ha
        obtain ⟨h1, h2⟩ := plain_lines (.span ·) hperm ha hc
        rw [flatMap_entries] at h1
        refine ⟨?_, fun t ht => ?_, fun t ht => ?_⟩
        · rw [List.flatMap_map]; exact h1
        · obtain ⟨x, hx, ht⟩ := text_flatten (text_plain (item := fun (x : Span) t => t = x.name ∨ t = x.traceId.getD [] ∨ t = x.spanId.getD []) h2 ht)
          exact ⟨_, List.mem_map_of_mem hx, ht⟩
        · obtain ⟨x, hx, ht⟩ := attr_flatten (attr_plain (item := fun (x : Span) kv => kv ∈ x.attrs) h2 ht)
          exact ⟨_, List.mem_map_of_mem hx, ht⟩

theorem Apart.mono {P : Par} {rs rs' : List (ResourceG α)} (h : Apart P rs) (hs : ∀ r ∈ rs', r ∈ rs) : Apart P rs' where
  resource r h1 r' h2 := h.resource r (hs r h1) r' (hs r' h2)
  scope r h1 r' h2 := h.scope r (hs r h1) r' (hs r' h2)

theorem Unconfused.mono {P : Par} {ds ds' : List Data} (h : Unconfused P ds) (hs : ∀ d ∈ ds', d ∈ ds) : Unconfused P ds' := by
  have key : ∀ {β : Type} (f : Data → List β) x, x ∈ ds'.flatMap f → x ∈ ds.flatMap f := fun f x hx => by
    obtain ⟨d, h1, h2⟩ := List.mem_flatMap.1 hx
    exact List.mem_flatMap.2 ⟨d, hs d h1, h2⟩
  exact ⟨h.logs.mono (key _), h.traces.mono (key _), h.metrics.mono (key _), fun r h1 r' h2 => h.names r (key _ r h1) r' (key _ r' h2)⟩

end Verif.Dt

namespace Verif.Vs
open St (Filter)

theorem line_bare (e : Entry) : e.line.bare = e.bare.line := rfl

open Classical in
/-- Trimming, in terms of lines. -/
theorem trimmed_lines {W : Wanted} {start stop : Nat} {d out : Data} (h : Trimmed W start stop d out) :
    (lines out).map Line.bare = ((lines d).filter fun l => decide (l.Ok W start stop)).map Line.bare := by
  have h1 := congrArg (List.map Entry.line) (trimmed_entries h)
  unfold lines
  rw [List.map_map, List.map_map] at h1
  rw [List.filter_map, List.map_map, List.map_map]
  exact h1

/-- Where trimming trips over an attribute, there is one without a value. -/
theorem trips_nil {W : Wanted} {d : Data} (h : Data.Trips W d) : ¬ NoNil d := by
  have key : ∀ {α : Type} {item : α → KeyValue → Prop} {rs : List (ResourceG α)}, Trips W rs → ∃ kv, GroupAttr item rs kv ∧ kv.value = none := by
    rintro α item rs ⟨rm, h1, -, ⟨-, kv, h2, h3⟩ | ⟨-, sm, h2, -, -, -, -, kv, h3, h4⟩⟩
    · exact ⟨kv, ⟨rm, h1, .inl h2⟩, h3⟩
    · exact ⟨kv, ⟨rm, h1, .inr ⟨sm, h2, .inl h3⟩⟩, h4⟩
  intro hn
  cases d with
  | none => exact h
  | logs rs => obtain ⟨kv, h1, h2⟩ := key h; exact hn kv h1 h2
  | traces rs => obtain ⟨kv, h1, h2⟩ := key h; exact hn kv h1 h2
  | metrics rs => obtain ⟨kv, h1, h2⟩ := key h; exact hn kv h1 h2

end Verif.Vs

namespace Verif.Sv
open Cache Tr
variable {hash : Bytes → Nat} {c : Config} {K : List Bytes} {bw : Nat} {st : CState} {ls : List (Label CState)} {s : Svc CState} {es : List (Event CState)}

open Classical in
/-- What the script gets, if the store answers with a payload whose lines, texts and attributes are those of `ds`. -/
theorem script_of {P : Vs.Hashes} {store : St.Scan → St.Result} {clock : Int} {sc : St.Scan} {d : Data} {ds : List Data}
    (hfil : sc.filters ≠ []) (hst : store sc = .data (some d)) (hl : (Vs.lines d).Perm (ds.flatMap Vs.lines))
    (ht : ∀ t, Vs.HasText d t → ∃ d' ∈ ds, Vs.HasText d' t) (hk : ∀ kv, Vs.HasAttr d kv → ∃ d' ∈ ds, Vs.HasAttr d' kv)
    (hfa : ∀ d ∈ ds, Vs.Faithful P sc.filters d) :
    (Js.queryScan P store clock sc = .panic ∧ ∃ d ∈ ds, ¬ Vs.NoNil d) ∨
    ∃ out, Js.queryScan P store clock sc = .data (some out) ∧
      ((Vs.lines out).map Vs.Line.bare).Perm (((ds.flatMap Vs.lines).filter fun l =>
        decide (l.Ok (Vs.actual sc.filters) (Js.toUint64 (Tm.timeBounds clock sc.time).1) (Js.toUint64 (Tm.timeBounds clock sc.time).2))).map Vs.Line.bare) := by
  have hf : Vs.Faithful P sc.filters d := by
    constructor
    · intro p v hm t htx; obtain ⟨d', h1, h2⟩ := ht t htx; exact (hfa d' h1).text p v hm t h2
    · intro p v h hm hd t htx; obtain ⟨d', h1, h2⟩ := ht t htx; exact (hfa d' h1).id p v h hm hd t h2
    · intro p k v hm kv x hkv; obtain ⟨d', h1, h2⟩ := hk kv hkv; exact (hfa d' h1).attr p k v hm kv x h2
  obtain ⟨-, -, h3⟩ := Js.C41_exact (P := P) (clock := clock) (a := sc) (fun a => Js.rpc (store a)) (fun h => hfil h.2)
  obtain ⟨h4, h5⟩ := h3 d (by simp only [hst]; rfl) hf
  by_cases htr : Vs.Data.Trips (Vs.actual sc.filters) d
  · left
    refine ⟨h4.2 htr, ?_⟩
    have := Vs.trips_nil htr
    unfold Vs.NoNil at this
    simp only [not_forall] at this
    obtain ⟨kv, h6, h7⟩ := this
    obtain ⟨d', h8, h9⟩ := hk kv h6
    exact ⟨d', h8, fun hn => h7 (hn kv h9)⟩
  · right
    obtain ⟨out, h6, h7⟩ := h5 htr
    refine ⟨out, h6, ?_⟩
    rw [Vs.trimmed_lines h7]
    exact (hl.filter _).map _

theorem sameKinds_mono {P : Dt.Par} {a b : List (ResourceG Metric)} (h : ∀ r ∈ b, r ∈ a) (hk : Dt.SameKinds P a) : Dt.SameKinds P b :=
  fun r h1 r' h2 => hk r (h r h1) r' (h r' h2)

open Classical in
/-- **C77**. In the first process on an empty database, once everything is flushed: a script that scans a time range with
filters gets exactly those log records, spans or data points of the requests answered with success that lie in the window and
match the filters as C38 reads them, from the payloads that carry all labels asked for and are filed under the scanned views; each
once, each with what its own resource and scope said (but for the schema URL of the scope, C48). Otherwise two metrics that are
merged have different kinds (the server crashes in merging, C35), or a payload has an attribute without a value (C50).
Not covered: what `C53_range_partial` does not cover; payloads whose resources or scopes are confused by hashing (`Unconfused`, C36). -/
theorem C77_query (h : FirstLife hash c K bw st ls s es) (E : St.Env) (hE : E.Fair) (hF : E.NoFaults) (sc : St.Scan)
    (hscope : sc.scope = Res.metrics ∨ sc.scope = Res.logs ∨ sc.scope = Res.traces) (hf : Filtered sc) (hr : sc.time.range.isSome)
    (ha : ∀ v ∈ E.views sc, AlignedData (ackedOf es) v) (hone : ∀ d ∈ wantedOf (ackedOf es) E sc, d.OneView (E.views sc))
    (hu : Dt.Unconfused E.P (wantedOf (ackedOf es) E sc)) (P : Vs.Hashes) (hfa : ∀ d ∈ wantedOf (ackedOf es) E sc, Vs.Faithful P sc.filters d) (clock : Int) :
    (sc.scope = Res.metrics ∧ ¬ Dt.SameKinds E.P ((wantedOf (ackedOf es) E sc).flatMap Dt.metricsOf) ∧
      Js.queryScan P (St.scan (realDict hash c K) s.store E) clock sc = .err) ∨
    ((∃ d ∈ wantedOf (ackedOf es) E sc, ¬ Vs.NoNil d) ∧ Js.queryScan P (St.scan (realDict hash c K) s.store E) clock sc = .panic) ∨
    ∃ out, Js.queryScan P (St.scan (realDict hash c K) s.store E) clock sc = .data (some out) ∧
      ((Vs.lines out).map Vs.Line.bare).Perm ((((wantedOf (ackedOf es) E sc).flatMap Vs.lines).filter fun l =>
        decide (l.Ok (Vs.actual sc.filters) (Js.toUint64 (Tm.timeBounds clock sc.time).1) (Js.toUint64 (Tm.timeBounds clock sc.time).2))).map Vs.Line.bare) := by
  obtain ⟨ps, hperm, hsig, he⟩ := first_merged h E hE hF sc hscope hf hr ha hone
  have hfil : sc.filters ≠ [] := by
    intro h0
    have : sc.asked = [{ resource := sc.scope }] := by unfold St.Scan.asked; rw [if_pos h0]
    exact hf.2 _ (by rw [this]; exact List.mem_singleton_self _) rfl
  generalize wantedOf (ackedOf es) E sc = W at *
  have done := fun d h1 h2 h3 h4 => (script_of (P := P) (store := St.scan (realDict hash c K) s.store E) (clock := clock) (d := d) (ds := W) hfil h1 h2 h3 h4 hfa).imp_left And.symm
  by_cases hm : W = []
  · rw [if_pos hm] at he
    subst hm
    rcases hscope with e | e | e <;> rw [e] at he
    · exact .inr <| done (.metrics []) he .nil (fun _ ⟨_, hn, _⟩ => nomatch hn) (fun _ ⟨_, hn, _⟩ => nomatch hn)
    · exact .inr <| done (.logs []) he .nil (fun _ ⟨_, hn, _⟩ => nomatch hn) (fun _ ⟨_, hn, _⟩ => nomatch hn)
    · exact .inr <| done (.traces []) he .nil (fun _ ⟨_, hn, _⟩ => nomatch hn) (fun _ ⟨_, hn, _⟩ => nomatch hn)
  · rw [if_neg hm] at he
    have hps : ps ≠ [] := by rintro rfl; exact hm hperm.symm.eq_nil
    unfold St.merged at he
    have hu' := hu.mono fun d hd => hperm.mem_iff.1 hd
    cases hc : Dt.collapse E.P E.resOrder ps with
    | none =>
      left
      rw [hc] at he
      have herr : Js.queryScan P (St.scan (realDict hash c K) s.store E) clock sc = .err := by
        unfold Js.queryScan Js.jsScan; simp only [he, Js.rpc]
      rcases hscope with e | e | e
      · refine ⟨e, fun hk => ?_, herr⟩
        obtain ⟨ds, rfl⟩ := St.all_metrics fun p hp => e ▸ hsig p hp
        refine (Dt.C35_no_panic_partial E.P E.resOrder).2.2 ds ?_ hc
        refine sameKinds_mono (fun r hr' => ?_) hk
        rw [← Dt.metricsOf_map] at hr'
        obtain ⟨d, h1, h2⟩ := List.mem_flatMap.1 hr'
        exact List.mem_flatMap.2 ⟨d, hperm.mem_iff.1 h1, h2⟩
      · obtain ⟨ds, rfl⟩ := St.all_logs fun p hp => e ▸ hsig p hp
        exact absurd hc ((Dt.C35_no_panic_partial E.P E.resOrder).1 ds)
      · obtain ⟨ds, rfl⟩ := St.all_traces fun p hp => e ▸ hsig p hp
        exact absurd hc ((Dt.C35_no_panic_partial E.P E.resOrder).2.1 ds)
    | some r =>
      rw [hc] at he
      cases r with
      | none =>
        exfalso
        rcases hscope with e | e | e
        · obtain ⟨ds, rfl⟩ := St.all_metrics fun p hp => e ▸ hsig p hp
          obtain ⟨out, h1, -⟩ := Dt.C33_metrics E.P E.resOrder hE.res ds (by rintro rfl; exact hps rfl) _ hc
          cases h1
        · obtain ⟨ds, rfl⟩ := St.all_logs fun p hp => e ▸ hsig p hp
          obtain ⟨out, h1, -⟩ := Dt.C33_logs E.P E.resOrder hE.res ds (by rintro rfl; exact hps rfl)
          rw [hc] at h1; cases h1
        · obtain ⟨ds, rfl⟩ := St.all_traces fun p hp => e ▸ hsig p hp
          obtain ⟨out, h1, -⟩ := Dt.C33_traces E.P E.resOrder hE.res ds (by rintro rfl; exact hps rfl)
          rw [hc] at h1; cases h1
      | some d =>
        obtain ⟨h1, h2, h3⟩ := Dt.C77_merge E.P E.resOrder hE.res hscope hsig hu' hc
        exact .inr <| done d he (h1.trans (hperm.flatMap_right _))
          (fun t ht => (h2 t ht).imp fun d h => ⟨hperm.mem_iff.1 h.1, h.2⟩) (fun t ht => (h3 t ht).imp fun d h => ⟨hperm.mem_iff.1 h.1, h.2⟩)

open Classical in
/-- **C77**, instant scans: the script gets the wanted part of the latest matching request answered with success. -/
theorem C77_latest (h : FirstLife hash c K bw st ls s es) (E : St.Env) (hE : E.Fair) (hF : E.NoFaults) (sc : St.Scan)
    (hscope : sc.scope = Res.metrics ∨ sc.scope = Res.logs ∨ sc.scope = Res.traces) (hf : Filtered sc) (hr : sc.time.range = none)
    (ha : ∀ v ∈ E.views sc, AlignedData (ackedOf es) v) (hone : ∀ d ∈ wantedOf (ackedOf es) E sc, d.OneView (E.views sc))
    (P : Vs.Hashes) (hfa : ∀ d ∈ wantedOf (ackedOf es) E sc, Vs.Faithful P sc.filters d) (clock : Int) :
    ((∃ d ∈ wantedOf (ackedOf es) E sc, ¬ Vs.NoNil d) ∧ Js.queryScan P (St.scan (realDict hash c K) s.store E) clock sc = .panic) ∨
    ∃ out, Js.queryScan P (St.scan (realDict hash c K) s.store E) clock sc = .data (some out) ∧
      ((Vs.lines out).map Vs.Line.bare).Perm ((((wantedOf (ackedOf es) E sc).getLast?.toList.flatMap Vs.lines).filter fun l =>
        decide (l.Ok (Vs.actual sc.filters) (Js.toUint64 (Tm.timeBounds clock sc.time).1) (Js.toUint64 (Tm.timeBounds clock sc.time).2))).map Vs.Line.bare) := by
  have he := C53_latest_partial h E hE hF sc hscope hf hr ha hone
  have hfil : sc.filters ≠ [] := by
    intro h0
    have : sc.asked = [{ resource := sc.scope }] := by unfold St.Scan.asked; rw [if_pos h0]
    exact hf.2 _ (by rw [this]; exact List.mem_singleton_self _) rfl
  generalize wantedOf (ackedOf es) E sc = W at *
  have hsub : ∀ d ∈ W.getLast?.toList, d ∈ W := fun d hd => List.mem_of_getLast? (Option.mem_toList.1 hd)
  have done := fun d h1 h2 h3 h4 => (script_of (P := P) (store := St.scan (realDict hash c K) s.store E) (clock := clock) (d := d) (ds := W.getLast?.toList)
    hfil h1 h2 h3 h4 fun d hd => hfa d (hsub d hd)).imp_left fun h => And.intro (h.2.imp fun d h => And.intro (hsub d h.1) h.2) h.1
  cases hl : W.getLast? with
  | none =>
    rw [hl] at done he
    rcases hscope with e | e | e <;> rw [e] at he
    · exact done (.metrics []) he .nil (fun _ ⟨_, hn, _⟩ => nomatch hn) (fun _ ⟨_, hn, _⟩ => nomatch hn)
    · exact done (.logs []) he .nil (fun _ ⟨_, hn, _⟩ => nomatch hn) (fun _ ⟨_, hn, _⟩ => nomatch hn)
    · exact done (.traces []) he .nil (fun _ ⟨_, hn, _⟩ => nomatch hn) (fun _ ⟨_, hn, _⟩ => nomatch hn)
  | some d =>
    rw [hl] at done he
    exact done d he (by simp) (fun t ht => ⟨d, by simp, ht⟩) (fun t ht => ⟨d, by simp, ht⟩)

end Verif.Sv

/-! ## Straight filters: every wanted record that was exported -/

namespace Verif.Vs
open St (Filter Scan)

theorem hexText_mono {a b : List Bytes} (hs : ∀ x ∈ a, x ∈ b) {u v : Bytes} (h : Flt.HexText a u v) : Flt.HexText b u v := by
  induction h with
  | nil => exact .nil
  | cons hi lo _ ih =>
    obtain ⟨d, h1, h2⟩ := hi
    obtain ⟨e, h3, h4⟩ := lo
    exact .cons ⟨d, hs d h1, h2⟩ ⟨e, hs e h3, h4⟩ ih

theorem hex_round (h : Bytes) : hexDecode (hexEncode h) = some h :=
  (Flt.C73_hexDecode _ _).2 (hexText_mono (by simp) ((Flt.hexText_iff h (hexEncode h)).2 rfl))

theorem mem_line {α : Type} {recs : α → List Rec} {rs : List (ResourceG α)} {l : Line} (h : l ∈ (entriesOf recs rs).map Entry.line) :
    ∃ rm ∈ rs, ∃ sm ∈ rm.scopes, ∃ x ∈ sm.items, ∃ r ∈ recs x,
      l = ⟨rm.schema, resAttrs rm.resource, sm.schema, scName sm.scope, scVersion sm.scope, scAttrs sm.scope, r⟩ := by
  obtain ⟨e, he, rfl⟩ := List.mem_map.1 h
  unfold entriesOf at he
  obtain ⟨rm, h1, he⟩ := List.mem_flatMap.1 he
  obtain ⟨sm, h2, he⟩ := List.mem_flatMap.1 he
  obtain ⟨x, h3, he⟩ := List.mem_flatMap.1 he
  obtain ⟨r, h4, rfl⟩ := List.mem_map.1 he
  exact ⟨rm, h1, sm, h2, x, h3, r, h4, rfl⟩

theorem one_value {fs : List Filter} {p : Int} {v t : Bytes} (once : ∀ w, .base p w ∈ fs → v = w) (hm : .base p v ∈ fs) (h : OneOf (askedBase fs p) t) : t = v := by
  rcases h with h | h
  · have := mem_askedBase.2 hm; rw [h] at this; cases this
  · exact (once t (mem_askedBase.1 h)).symm

/-- The labels of resource and scope that a line shows. -/
theorem group_answers {α : Type} {r : Int} {item : α → Verif.Label → Prop} {rs : List (ResourceG α)} {rm : ResourceG α} (hrm : rm ∈ rs) {sm : ScopeG α} (hsm : sm ∈ rm.scopes) {p : Int} {v : Bytes}
    (hp : p ∈ [Pfx.resourceSchema, Pfx.scopeSchema, Pfx.scopeName, Pfx.scopeVersion]) (hv : v ≠ [])
    (h1 : p = Pfx.resourceSchema → rm.schema = v) (h2 : p = Pfx.scopeSchema → sm.schema = v) (h3 : p = Pfx.scopeName → scName sm.scope = v)
    (h4 : p = Pfx.scopeVersion → scVersion sm.scope = v) : GroupLabel r item rs { resource := r, pfx := p, key := v } := by
  simp only [List.mem_cons, List.not_mem_nil, or_false] at hp
  rcases hp with rfl | rfl | rfl | rfl
  · exact ⟨rm, hrm, .inl ⟨by rw [h1 rfl]; exact hv, by rw [h1 rfl]⟩⟩
  · exact ⟨rm, hrm, .inr (.inr ⟨sm, hsm, .inl ⟨by rw [h2 rfl]; exact hv, by rw [h2 rfl]⟩⟩)⟩
  · have := h3 rfl
    cases hs : sm.scope with
    | none => rw [hs] at this; exact absurd this.symm hv
    | some sc =>
      rw [hs] at this
      exact ⟨rm, hrm, .inr (.inr ⟨sm, hsm, .inr (.inl ⟨sc, hs, .inl ⟨by rw [show sc.name = v from this]; exact hv, by rw [show sc.name = v from this]⟩⟩)⟩)⟩
  · have := h4 rfl
    cases hs : sm.scope with
    | none => rw [hs] at this; exact absurd this.symm hv
    | some sc =>
      rw [hs] at this
      exact ⟨rm, hrm, .inr (.inr ⟨sm, hsm, .inr (.inl ⟨sc, hs, .inr (.inl ⟨by rw [show sc.version = v from this]; exact hv, by rw [show sc.version = v from this]⟩)⟩)⟩)⟩

theorem attr_answers {α : Type} {r : Int} {item : α → Verif.Label → Prop} {rs : List (ResourceG α)} {rm : ResourceG α} (hrm : rm ∈ rs) {sm : ScopeG α} (hsm : sm ∈ rm.scopes) {p : Int} {k v : Bytes}
    (hp : p ∈ [Pfx.resourceAttributes, Pfx.scopeAttributes]) (hv : v ≠ [])
    (h1 : p = Pfx.resourceAttributes → ({ key := k, value := some (.str v) } : KeyValue) ∈ resAttrs rm.resource)
    (h2 : p = Pfx.scopeAttributes → ({ key := k, value := some (.str v) } : KeyValue) ∈ scAttrs sm.scope) :
    GroupLabel r item rs { resource := r, pfx := p, key := k, value := v } := by
  simp only [List.mem_cons, List.not_mem_nil, or_false] at hp
  rcases hp with rfl | rfl
  · have := h1 rfl
    cases hs : rm.resource with
    | none => rw [hs] at this; cases this
    | some res => rw [hs] at this; exact ⟨rm, hrm, .inr (.inl ⟨res, hs, _, this, v, hv, rfl, rfl⟩)⟩
  · have := h2 rfl
    cases hs : sm.scope with
    | none => rw [hs] at this; cases this
    | some sc => rw [hs] at this; exact ⟨rm, hrm, .inr (.inr ⟨sm, hsm, .inr (.inl ⟨sc, hs, .inr (.inr ⟨_, this, v, hv, rfl, rfl⟩)⟩)⟩)⟩

/-- With straight filters, a payload with a wanted line carries all labels asked for. -/
theorem line_answers {sc : Scan} (hsc : StraightScan sc) {d : Data} (hd : d.signal = some sc.scope) {start stop : Nat} {l : Line} (hl : l ∈ lines d)
    (hok : l.Ok (intended sc.filters) start stop) : d.Answers sc := by
  intro lab hlab
  refine ⟨lab, ?_, rfl⟩
  unfold St.Scan.asked at hlab
  rw [if_neg hsc.any] at hlab
  obtain ⟨f, hf, hlab⟩ := List.mem_filterMap.1 hlab
  have hst := hsc.each f hf
  obtain ⟨o1, o2, o3, o4, o5, o6, o7⟩ := hok
  cases d with
  | none => cases hd
  | logs rs =>
    have hs : sc.scope = Res.logs := (Option.some.inj hd).symm
    obtain ⟨rm, hrm, sm, hsm, x, hx, r, hr, rfl⟩ := mem_line hl
    rw [List.mem_singleton] at hr
    subst hr
    show GroupLabel _ _ _ _
    cases hst with
    | @group p v hp hv =>
      cases hlab
      rw [hs]
      have once := fun w => hsc.once p v w hf
      exact group_answers hrm hsm hp hv (by rintro rfl; exact one_value once hf o1) (by rintro rfl; exact one_value once hf o3)
        (by rintro rfl; exact one_value once hf o4) (by rintro rfl; exact one_value once hf o5)
    | @level v _ hv =>
      cases hlab
      rw [hs]
      have e : x.severity = v := one_value (fun w => hsc.once _ v w hf) hf o7.1
      exact ⟨rm, hrm, .inr (.inr ⟨sm, hsm, .inr (.inr ⟨x, hx, .inl ⟨by rw [e]; exact hv, by rw [e]⟩⟩)⟩)⟩
    | name h _ => rw [hs] at h; exact absurd h (by decide)
    | trace h _ => rw [hs] at h; exact absurd h (by decide)
    | @attr p k v hp hv =>
      cases hlab
      rw [hs]
      exact attr_answers hrm hsm hp hv (by rintro rfl; exact o2 (k, v) (mem_askedAttrs.2 hf)) (by rintro rfl; exact o6 (k, v) (mem_askedAttrs.2 hf))
  | traces rs =>
    have hs : sc.scope = Res.traces := (Option.some.inj hd).symm
    obtain ⟨rm, hrm, sm, hsm, x, hx, r, hr, rfl⟩ := mem_line hl
    rw [List.mem_singleton] at hr
    subst hr
    show GroupLabel _ _ _ _
    cases hst with
    | @group p v hp hv =>
      cases hlab
      rw [hs]
      have once := fun w => hsc.once p v w hf
      exact group_answers hrm hsm hp hv (by rintro rfl; exact one_value once hf o1) (by rintro rfl; exact one_value once hf o3)
        (by rintro rfl; exact one_value once hf o4) (by rintro rfl; exact one_value once hf o5)
    | level h _ => rw [hs] at h; exact absurd h (by decide)
    | @name v _ hv =>
      cases hlab
      rw [hs]
      have e : x.name = v := one_value (fun w => hsc.once _ v w hf) hf o7.1
      exact ⟨rm, hrm, .inr (.inr ⟨sm, hsm, .inr (.inr ⟨x, hx, .inl ⟨by rw [e]; exact hv, by rw [e]⟩⟩)⟩)⟩
    | @trace h _ hh =>
      cases hlab
      rw [hs]
      have e : x.traceId = some h := by
        have hid : OneId ((askedBase sc.filters Pfx.traceId).map hexDecode) x.traceId := o7.2.2.2.1
        rcases hid with hid | hid
        · have := mem_askedBase.2 hf; rw [List.map_eq_nil_iff.1 hid] at this; cases this
        · obtain ⟨w, h1, h2⟩ := List.mem_map.1 hid
          rw [← hsc.once _ _ w hf (mem_askedBase.1 h1), hex_round] at h2
          cases hx' : x.traceId with
          | none => rw [hx'] at h2; exact absurd (Option.some.inj h2) hh
          | some b => rw [hx'] at h2; exact h2.symm
      exact ⟨rm, hrm, .inr (.inr ⟨sm, hsm, .inr (.inr ⟨x, hx, .inr (.inl ⟨h, e, rfl⟩)⟩)⟩)⟩
    | @attr p k v hp hv =>
      cases hlab
      rw [hs]
      exact attr_answers hrm hsm hp hv (by rintro rfl; exact o2 (k, v) (mem_askedAttrs.2 hf)) (by rintro rfl; exact o6 (k, v) (mem_askedAttrs.2 hf))
  | metrics rs =>
    have hs : sc.scope = Res.metrics := (Option.some.inj hd).symm
    obtain ⟨rm, hrm, sm, hsm, x, hx, r, hr, rfl⟩ := mem_line hl
    show GroupLabel _ _ _ _
    cases hst with
    | @group p v hp hv =>
      cases hlab
      rw [hs]
      have once := fun w => hsc.once p v w hf
      exact group_answers hrm hsm hp hv (by rintro rfl; exact one_value once hf o1) (by rintro rfl; exact one_value once hf o3)
        (by rintro rfl; exact one_value once hf o4) (by rintro rfl; exact one_value once hf o5)
    | level h _ => rw [hs] at h; exact absurd h (by decide)
    | @name v _ hv =>
      cases hlab
      rw [hs]
      have e : x.name = v := by
        cases hd' : x.data with
        | none => rw [hd'] at hr; cases hr
        | some dd =>
          rw [hd'] at hr
          obtain ⟨q, -, rfl⟩ := List.mem_map.1 hr
          exact one_value (fun w => hsc.once _ v w hf) hf o7.1
      exact ⟨rm, hrm, .inr (.inr ⟨sm, hsm, .inr (.inr ⟨x, hx, .inl (by rw [e])⟩)⟩)⟩
    | trace h _ => rw [hs] at h; exact absurd h (by decide)
    | @attr p k v hp hv =>
      cases hlab
      rw [hs]
      exact attr_answers hrm hsm hp hv (by rintro rfl; exact o2 (k, v) (mem_askedAttrs.2 hf)) (by rintro rfl; exact o6 (k, v) (mem_askedAttrs.2 hf))

theorem asked_none {sc : Scan} (hsc : StraightScan sc) {p : Int} (hp : ∀ v, ¬ Straight sc.scope (.base p v)) : askedBase sc.filters p = [] := by
  rw [List.eq_nil_iff_forall_not_mem]
  intro v hv
  exact hp v (hsc.each _ (mem_askedBase.1 hv))

theorem not_straight {scope : Int} {p : Int} {v : Bytes}
    (hp : p ∉ [Pfx.resourceSchema, Pfx.scopeSchema, Pfx.scopeName, Pfx.scopeVersion, Pfx.logsLevel, Pfx.name, Pfx.traceId]) : ¬ Straight scope (.base p v) := by
  intro h
  cases h with
  | group h _ => simp only [List.mem_cons, List.not_mem_nil, or_false] at h hp; omega
  | level => simp at hp
  | name => simp at hp
  | trace => simp at hp

/-- Straight filters are enforced as they are meant (C39). -/
theorem straight_actual {sc : Scan} (hsc : StraightScan sc) {d : Data} (hd : d.signal = some sc.scope) {start stop : Nat} {l : Line} (hl : l ∈ lines d) :
    l.Ok (actual sc.filters) start stop ↔ l.Ok (intended sc.filters) start stop := by
  have e1 : (actual sc.filters).scopeAttrs = (intended sc.filters).scopeAttrs := by
    show sc.filters.filterMap _ = askedAttrs sc.filters Pfx.scopeAttributes
    unfold askedAttrs
    refine List.filterMap_congr fun f hf => ?_
    cases hsc.each f hf with
    | group => rfl
    | level => rfl
    | name => rfl
    | trace => rfl
    | @attr p k v hp _ =>
      simp only [List.mem_cons, List.not_mem_nil, or_false] at hp
      rcases hp with rfl | rfl <;> rfl
  have e2 : (intended sc.filters).attrs = [] := by
    show askedAttrs sc.filters Pfx.attributes = []
    rw [List.eq_nil_iff_forall_not_mem]
    intro a ha
    have := hsc.each _ (mem_askedAttrs.1 ha)
    cases this with
    | attr hp _ => simp only [List.mem_cons, List.not_mem_nil, or_false] at hp; exact absurd hp (by decide)
  have e3 : (intended sc.filters).spanId = [] := by
    show (askedBase sc.filters Pfx.spanId).map _ = []
    rw [asked_none hsc fun v => not_straight (by decide)]; rfl
  have e4 : (intended sc.filters).parentId = [] := by
    show (askedBase sc.filters Pfx.parentSpanId).map _ = []
    rw [asked_none hsc fun v => not_straight (by decide)]; rfl
  have e5 : (actual sc.filters).spanId = [] := by
    show ((askedBase sc.filters Pfx.parentSpanId).filterMap _).map _ = []
    rw [asked_none hsc fun v => not_straight (by decide)]; rfl
  have e6 : (intended sc.filters).logSpanId = [] := by
    show (askedBase sc.filters Pfx.spanId).map _ = []
    rw [asked_none hsc fun v => not_straight (by decide)]; rfl
  have e7 : (actual sc.filters).traceId = (intended sc.filters).traceId := by
    show ((askedBase sc.filters Pfx.traceId).filterMap hexDecode).map some = (askedBase sc.filters Pfx.traceId).map hexDecode
    have : ∀ v ∈ askedBase sc.filters Pfx.traceId, ∃ b, hexDecode v = some b := fun v hv => by
      have h0 := mem_askedBase.1 hv
      have := hsc.each _ h0
      generalize hp : Pfx.traceId = p at this
      cases this with
      | group h => subst hp; exact absurd h (by decide)
      | level => exact absurd hp (by decide)
      | name => exact absurd hp (by decide)
      | trace => exact ⟨_, hex_round _⟩
    generalize askedBase sc.filters Pfx.traceId = vs at this
    induction vs with
    | nil => rfl
    | cons v vs ih =>
      obtain ⟨b, hb⟩ := this v (by simp)
      rw [List.filterMap_cons, hb, List.map_cons, List.map_cons, ih fun w hw => this w (by simp [hw]), hb]
  have hrec : RecOk (actual sc.filters) start stop l.record ↔ RecOk (intended sc.filters) start stop l.record := by
    cases d with
    | none => cases hd
    | logs rs =>
      have hs : sc.scope = Res.logs := (Option.some.inj hd).symm
      obtain ⟨rm, hrm, sm, hsm, x, hx, r, hr, rfl⟩ := mem_line hl
      rw [List.mem_singleton] at hr
      subst hr
      have e8 : (intended sc.filters).logTraceId = [] := by
        show (askedBase sc.filters Pfx.traceId).map _ = []
        rw [asked_none hsc fun v h => ?_]; rfl
        generalize hp : Pfx.traceId = p at h
        cases h with
        | group h => subst hp; exact absurd h (by decide)
        | level => exact absurd hp (by decide)
        | name => exact absurd hp (by decide)
        | trace h => rw [hs] at h; exact absurd h (by decide)
      show LogOk _ _ _ _ ↔ LogOk _ _ _ _
      unfold LogOk
      rw [e8, e6, e2]
      exact Iff.rfl
    | traces rs =>
      obtain ⟨rm, hrm, sm, hsm, x, hx, r, hr, rfl⟩ := mem_line hl
      rw [List.mem_singleton] at hr
      subst hr
      show SpanOk _ _ _ _ ↔ SpanOk _ _ _ _
      unfold SpanOk
      rw [e7, e3, e4, e5, e2]
      exact Iff.rfl
    | metrics rs =>
      obtain ⟨rm, hrm, sm, hsm, x, hx, r, hr, rfl⟩ := mem_line hl
      cases hd' : x.data with
      | none => rw [hd'] at hr; cases hr
      | some dd =>
        rw [hd'] at hr
        obtain ⟨q, -, rfl⟩ := List.mem_map.1 hr
        show _ ∧ PointOk _ _ _ _ ↔ _ ∧ PointOk _ _ _ _
        unfold PointOk
        rw [e2]
        exact Iff.rfl
  unfold Line.Ok
  rw [e1, hrec]
  exact Iff.rfl

end Verif.Vs

namespace Verif.Sv
open Cache Tr
variable {hash : Bytes → Nat} {c : Config} {K : List Bytes} {bw : Nat} {st : CState} {ls : List (Label CState)} {s : Svc CState} {es : List (Event CState)}

theorem straight_filtered {sc : St.Scan} (h : Vs.StraightScan sc) : Filtered sc := by
  unfold Filtered St.Scan.asked
  rw [if_neg h.any]
  constructor
  · obtain ⟨f, hf⟩ := List.exists_mem_of_ne_nil _ h.any
    intro h0
    have : ∃ lab, f.label sc.scope = some lab := by cases h.each f hf <;> exact ⟨_, rfl⟩
    obtain ⟨lab, hl⟩ := this
    have := List.mem_filterMap.2 ⟨f, hf, hl⟩
    rw [h0] at this; cases this
  · intro l hl
    obtain ⟨f, hf, hl⟩ := List.mem_filterMap.1 hl
    cases h.each f hf with
    | group hp => cases hl; simp only [List.mem_cons, List.not_mem_nil, or_false] at hp; rcases hp with rfl | rfl | rfl | rfl <;> simp <;> decide
    | level => cases hl; simp; decide
    | name => cases hl; simp; decide
    | trace => cases hl; simp; decide
    | attr hp => cases hl; simp only [List.mem_cons, List.not_mem_nil, or_false] at hp; rcases hp with rfl | rfl <;> simp <;> decide

theorem answers_signal {d : Data} {sc : St.Scan} (hf : Filtered sc) (h : d.Answers sc) : d.signal = some sc.scope := by
  obtain ⟨l, hl⟩ := List.exists_mem_of_ne_nil _ hf.1
  exact St.matches_signal (o := ⟨0, { id := 0, data := d }, true⟩) ((matches_iff hf).2 h) hl (hf.2 l hl)

open Classical in
/-- With straight filters, the wanted lines of all filed payloads are those of the payloads that carry the labels. -/
theorem wanted_lines {sc : St.Scan} (hsc : Vs.StraightScan sc) (ds : List Data) (E : St.Env) (start stop : Nat) :
    ((wantedOf ds E sc).flatMap Vs.lines).filter (fun l => decide (l.Ok (Vs.actual sc.filters) start stop)) =
    ((filedOf ds E sc).flatMap Vs.lines).filter (fun l => decide (l.Ok (Vs.intended sc.filters) start stop)) := by
  unfold wantedOf filedOf
  induction ds with
  | nil => rfl
  | cons d ds ih =>
    rw [List.filter_cons, List.filter_cons]
    by_cases hv : ∃ v ∈ E.views sc, d.InView v
    · by_cases hs : d.signal = some sc.scope
      · rw [if_pos (c := decide (d.signal = _ ∧ _) = true) (by simp only [decide_eq_true_eq]; exact ⟨hs, hv⟩), List.flatMap_cons, List.filter_append, ← ih]
        have key : (Vs.lines d).filter (fun l => decide (l.Ok (Vs.actual sc.filters) start stop)) =
            (Vs.lines d).filter (fun l => decide (l.Ok (Vs.intended sc.filters) start stop)) :=
          List.filter_congr fun l hl => by simp only [Vs.straight_actual hsc hs hl]
        by_cases ha : d.Answers sc
        · rw [if_pos (by simp only [decide_eq_true_eq]; exact ⟨ha, hv⟩), List.flatMap_cons, List.filter_append, key]
        · rw [if_neg (by simp only [decide_eq_true_eq]; exact fun h => ha h.1)]
          have : (Vs.lines d).filter (fun l => decide (l.Ok (Vs.intended sc.filters) start stop)) = [] := by
            rw [List.filter_eq_nil_iff]
            intro l hl hok
            exact ha (Vs.line_answers hsc hs hl (of_decide_eq_true hok))
          rw [this, List.nil_append]
      · rw [if_neg (by simp only [decide_eq_true_eq]; exact fun h => hs (answers_signal (straight_filtered hsc) h.1)),
          if_neg (by simp only [decide_eq_true_eq]; exact fun h => hs h.1), ih]
    · rw [if_neg (by simp only [decide_eq_true_eq]; exact fun h => hv h.2), if_neg (by simp only [decide_eq_true_eq]; exact fun h => hv h.2), ih]

open Classical in
/-- **C77**. In the first process on an empty database, once everything is flushed: a script that scans a time range with
straight filters gets exactly the log records, spans or data points that lie in the window and match all the filters, of all the
requests answered with success that are filed under the scanned views (all of them, C21, if no payload spans more than its own hour); each
once, each with what its own resource and scope said (but for the schema URL of the scope, C48). -/
theorem C77_straight (h : FirstLife hash c K bw st ls s es) (E : St.Env) (hE : E.Fair) (hF : E.NoFaults) (sc : St.Scan)
    (hscope : sc.scope = Res.metrics ∨ sc.scope = Res.logs ∨ sc.scope = Res.traces) (hsc : Vs.StraightScan sc) (hr : sc.time.range.isSome)
    (ha : ∀ v ∈ E.views sc, AlignedData (ackedOf es) v) (hone : ∀ d ∈ filedOf (ackedOf es) E sc, d.OneView (E.views sc))
    (hu : Dt.Unconfused E.P (filedOf (ackedOf es) E sc)) (P : Vs.Hashes) (hfa : ∀ d ∈ filedOf (ackedOf es) E sc, Vs.Faithful P sc.filters d)
    (hk : Dt.SameKinds E.P ((filedOf (ackedOf es) E sc).flatMap Dt.metricsOf)) (hn : ∀ d ∈ filedOf (ackedOf es) E sc, Vs.NoNil d) (clock : Int) :
    ∃ out, Js.queryScan P (St.scan (realDict hash c K) s.store E) clock sc = .data (some out) ∧
      ((Vs.lines out).map Vs.Line.bare).Perm ((((filedOf (ackedOf es) E sc).flatMap Vs.lines).filter fun l =>
        decide (l.Ok (Vs.intended sc.filters) (Js.toUint64 (Tm.timeBounds clock sc.time).1) (Js.toUint64 (Tm.timeBounds clock sc.time).2))).map Vs.Line.bare) := by
  have hsub : ∀ d ∈ wantedOf (ackedOf es) E sc, d ∈ filedOf (ackedOf es) E sc := fun d hd => by
    unfold wantedOf at hd
    unfold filedOf
    rw [List.mem_filter, decide_eq_true_eq] at hd ⊢
    exact ⟨hd.1, answers_signal (straight_filtered hsc) hd.2.1, hd.2.2⟩
  rcases C77_query h E hE hF sc hscope (straight_filtered hsc) hr ha (fun d hd => hone d (hsub d hd)) (hu.mono hsub) P
    (fun d hd => hfa d (hsub d hd)) clock with ⟨-, h1, -⟩ | ⟨⟨d, h1, h2⟩, -⟩ | ⟨out, h1, h2⟩
  · refine absurd (sameKinds_mono (fun r hr' => ?_) hk) h1
    obtain ⟨d, h2, h3⟩ := List.mem_flatMap.1 hr'
    exact List.mem_flatMap.2 ⟨d, hsub d h2, h3⟩
  · exact absurd (hn d (hsub d h1)) h2
  · exact ⟨out, h1, by rw [← wanted_lines hsc]; exact h2⟩

end Verif.Sv

/-! ### The hypotheses can be met -/

namespace Verif.Sv
open Cache Tr

theorem toy_straight : Vs.StraightScan toyScan where
  any := by decide
  each := by
    intro f hf
    rw [show toyScan.filters = [.base Pfx.logsLevel [97]] from rfl, List.mem_singleton] at hf
    subst hf
    exact .level rfl (by decide)
  once := by
    intro p v w hv hw
    rw [show toyScan.filters = [.base Pfx.logsLevel [97]] from rfl, List.mem_singleton] at hv hw
    cases hv; cases hw; rfl

theorem toy_view2 : (St.logAt 7 [98]).InView St.hourView := by
  have : St.Offered.InView ⟨0, { id := 0, data := St.logAt 7 [98] }, true⟩ St.hourView := by
    rw [St.inView_iff (by decide +kernel)]; decide +kernel
  exact this

theorem logAt_text {ts : Nat} {v t : Bytes} (h : Vs.HasText (St.logAt ts v) t) : t = [] ∨ t = v := by
  obtain ⟨rm, h1, h2⟩ := h
  rw [List.mem_singleton] at h1; subst h1
  rcases h2 with h2 | ⟨sm, h1, h2⟩
  · exact .inl h2
  · rw [List.mem_singleton] at h1; subst h1
    rcases h2 with h2 | h2 | h2 | ⟨x, h1, h2⟩
    · exact .inl h2
    · exact .inl h2
    · exact .inl h2
    · rw [List.mem_singleton] at h1; subst h1; exact .inr h2

theorem logAt_attr {ts : Nat} {v : Bytes} {kv : KeyValue} : ¬ Vs.HasAttr (St.logAt ts v) kv := by
  rintro ⟨rm, h1, h2⟩
  rw [List.mem_singleton] at h1; subst h1
  rcases h2 with h2 | ⟨sm, h1, h2⟩
  · cases h2
  · rw [List.mem_singleton] at h1; subst h1
    rcases h2 with h2 | ⟨x, h1, h2⟩
    · cases h2
    · rw [List.mem_singleton] at h1; subst h1; cases h2

theorem toy_faithful {ts : Nat} {v : Bytes} (hv : v = [97] ∨ v = [98]) : Vs.Faithful Vs.xx toyScan.filters (St.logAt ts v) where
  text := by
    intro p w hw t ht he
    rw [show toyScan.filters = [.base Pfx.logsLevel [97]] from rfl, List.mem_singleton] at hw
    cases hw
    have h0 : Vs.xx.H [97] ≠ Vs.xx.H [] := by decide +kernel
    have h1 : Vs.xx.H [97] ≠ Vs.xx.H [98] := by decide +kernel
    rcases logAt_text ht with rfl | rfl
    · exact absurd he h0
    · rcases hv with rfl | rfl
      · rfl
      · exact absurd he h1
  id := by
    intro p w h hw hd
    rw [show toyScan.filters = [.base Pfx.logsLevel [97]] from rfl, List.mem_singleton] at hw
    cases hw
    cases hd
  attr := fun _ _ _ _ _ _ h => absurd h logAt_attr

open Classical in
/-- All hypotheses of `C77_straight` hold; of the two records exported the script gets the one it asked for. -/
theorem toy_script : ∃ st s es out, FirstLife toyHash deployed toyKeys 1000 st toyRun s es ∧ ackedOf es = [St.logAt 5 [97], St.logAt 7 [98]] ∧
    Js.queryScan Vs.xx (St.scan (realDict toyHash deployed toyKeys) s.store St.toyEnv) 0 toyScan = .data (some out) ∧
    (Vs.lines out).map Vs.Line.bare = [⟨[], [], [], [], [], [], .log { ts := 5, severity := [97] }⟩] := by
  obtain ⟨st, s, es, h, ha⟩ := toy_first
  have hviews : St.toyEnv.views toyScan = [St.hourView] := rfl
  have hw : filedOf (ackedOf es) St.toyEnv toyScan = [St.logAt 5 [97], St.logAt 7 [98]] := by
    rw [ha]
    unfold filedOf
    have h1 : ∃ v ∈ St.toyEnv.views toyScan, (St.logAt 5 [97]).InView v := ⟨St.hourView, List.mem_singleton_self _, toy_view⟩
    have h2 : ∃ v ∈ St.toyEnv.views toyScan, (St.logAt 7 [98]).InView v := ⟨St.hourView, List.mem_singleton_self _, toy_view2⟩
    have s1 : (St.logAt 5 [97]).signal = some toyScan.scope := rfl
    have s2 : (St.logAt 7 [98]).signal = some toyScan.scope := rfl
    simp [h1, h2, s1, s2]
  have hmem : ∀ d ∈ filedOf (ackedOf es) St.toyEnv toyScan, d = St.logAt 5 [97] ∨ d = St.logAt 7 [98] := fun d hd => by rw [hw] at hd; simpa using hd
  have hap : ∀ rs : List (ResourceG LogRecord), (∀ r ∈ rs, ∃ xs, r = { scopes := [{ items := xs }] }) → Dt.Apart St.toyEnv.P rs := fun rs hrs => by
    constructor
    · intro r h1 r' h2 _
      obtain ⟨xs, rfl⟩ := hrs r h1
      obtain ⟨ys, rfl⟩ := hrs r' h2
      exact ⟨rfl, rfl⟩
    · intro r h1 r' h2 s h3 s' h4 _
      obtain ⟨xs, rfl⟩ := hrs r h1
      obtain ⟨ys, rfl⟩ := hrs r' h2
      rw [List.mem_singleton] at h3 h4
      subst h3 h4
      exact ⟨rfl, rfl, rfl, rfl, rfl⟩
  have htr : (filedOf (ackedOf es) St.toyEnv toyScan).flatMap Dt.tracesOf = [] := by rw [hw]; rfl
  have hmt : (filedOf (ackedOf es) St.toyEnv toyScan).flatMap Dt.metricsOf = [] := by rw [hw]; rfl
  obtain ⟨out, h1, h2⟩ := C77_straight h St.toyEnv St.toyEnv_fair St.toyEnv_noFaults toyScan (.inr (.inl rfl)) toy_straight rfl
      (fun v hv => by rw [hviews, List.mem_singleton] at hv; subst hv; rw [ha]; exact .inl ⟨_, rfl, toy_view⟩)
      (fun d hd => by
        rcases hmem d hd with rfl | rfl
        · exact ⟨[], St.hourView, [], rfl, toy_view, by simp⟩
        · exact ⟨[], St.hourView, [], rfl, toy_view2, by simp⟩)
      (by
        refine ⟨hap _ fun r hr => ?_, ?_, ?_, ?_⟩
        · rw [hw] at hr
          have hr : r ∈ [({ scopes := [{ items := [{ ts := 5, severity := [97] }] }] } : ResourceG LogRecord), { scopes := [{ items := [{ ts := 7, severity := [98] }] }] }] := hr
          simp only [List.mem_cons, List.not_mem_nil, or_false] at hr
          rcases hr with rfl | rfl <;> exact ⟨_, rfl⟩
        · rw [htr]; exact ⟨fun _ h => (nomatch h), fun _ h => (nomatch h)⟩
        · rw [hmt]; exact ⟨fun _ h => (nomatch h), fun _ h => (nomatch h)⟩
        · rw [hmt]; exact fun _ h => (nomatch h))
      Vs.xx (fun d hd => by rcases hmem d hd with rfl | rfl; exacts [toy_faithful (.inl rfl), toy_faithful (.inr rfl)])
      (by rw [hmt]; exact fun _ h => (nomatch h))
      (fun d hd => by rcases hmem d hd with rfl | rfl <;> exact fun kv h => absurd h logAt_attr) 0
  refine ⟨st, s, es, out, h, ha, h1, ?_⟩
  rw [hw] at h2
  have key : (([St.logAt 5 [97], St.logAt 7 [98]].flatMap Vs.lines).filter fun l =>
        decide (l.Ok (Vs.intended toyScan.filters) (Js.toUint64 (Tm.timeBounds 0 toyScan.time).1) (Js.toUint64 (Tm.timeBounds 0 toyScan.time).2))) =
      [⟨[], [], [], [], [], [], .log { ts := 5, severity := [97] }⟩] := by
    have e : [St.logAt 5 [97], St.logAt 7 [98]].flatMap Vs.lines =
      [⟨[], [], [], [], [], [], .log { ts := 5, severity := [97] }⟩, ⟨[], [], [], [], [], [], .log { ts := 7, severity := [98] }⟩] := rfl
    rw [e, show (Tm.timeBounds 0 toyScan.time).1 = 0 from rfl, show (Tm.timeBounds 0 toyScan.time).2 = 10 from rfl,
      show Js.toUint64 0 = 0 from rfl, show Js.toUint64 10 = 10 from rfl, List.filter_cons, if_pos, List.filter_cons, if_neg, List.filter_nil]
    · intro h
      have h := of_decide_eq_true h
      obtain ⟨-, -, -, -, -, -, h, -⟩ := h
      rcases h with h | h
      · exact absurd (show ([97] : Bytes) ∈ Vs.askedBase toyScan.filters Pfx.logsLevel from List.mem_singleton_self _) (by rw [show Vs.askedBase toyScan.filters Pfx.logsLevel = [] from h]; simp)
      · exact absurd (show ([98] : Bytes) ∈ [[97]] from h) (by decide)
    · refine decide_eq_true ⟨.inl rfl, fun a h => (nomatch h), .inl rfl, .inl rfl, .inl rfl, fun a h => (nomatch h), .inr (List.mem_singleton_self _), ?_, ?_, .inl rfl, .inl rfl, fun a h => (nomatch h)⟩
      · exact Nat.zero_le _
      · show 5 < 10; omega
  rw [key] at h2
  exact List.perm_singleton.1 h2

end Verif.Sv
