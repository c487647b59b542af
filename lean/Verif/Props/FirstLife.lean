import Verif.Props.EndToEnd
/-!
# C53: what was answered with success is what scans return

End to end: the service, the dictionary of the code with its cache, index and data frame, in the first process on an empty
database.
-/
namespace Verif.Sv
open Cache Tr

/-- A schedule of the first process on an empty database, with the dictionary of the code, and everything flushed. `K` lists the
labels that occur; there are at most as many as the dictionary leases at once (4096 as deployed), and their hashes differ. -/
structure FirstLife (hash : Bytes → Nat) (c : Config) (K : List Bytes) (bw : Nat) (st : CState) (ls : List (Label CState)) (s : Svc CState) (es : List (Event CState)) : Prop where
  lease : 0 < c.lease ∧ K.length ≤ c.lease ∧ c.lease ≤ 2 ^ 20
  hashes : ∀ a ∈ K, ∀ b ∈ K, hash a = hash b → a = b
  dict : ∃ db oracle, Fresh c.pfx db ∧ reopen c db oracle = some st
  run : ∃ db s0, db Sq.seqKey = none ∧ init bw st db = some s0 ∧ run (realDict hash c K) bw s0 ls = some (s, es)
  ids : 0 < bw ∧ used bw ls + bw < 2 ^ 44
  once : ∀ st c, .restart st c ∉ ls
  plain : Plain ls
  covers : Covers K ls
  settled : Settled s es

variable {hash : Bytes → Nat} {c : Config} {K : List Bytes} {bw : Nat} {st : CState} {ls : List (Label CState)} {s : Svc CState} {es : List (Event CState)}

theorem first_agree : St.Agree (realDict hash c K) (firstDict hash c K) K where
  tr := fun st k hk => by simp only [firstDict, onlyDict, realDict, if_pos hk]
  look := rfl
  keyOf := rfl

/-- The history of the store, with a dictionary that meets Spec/Dict.lean. -/
structure Told (hash : Bytes → Nat) (c : Config) (K : List Bytes) (st : CState) (s : Svc CState) (es : List (Event CState)) (ops : List (St.Op CState)) : Prop where
  lawful : (firstDict hash c K).Lawful
  good : (firstDict hash c K).Good st
  store : s.store = St.run (firstDict hash c K) st ops
  valid : St.Valid (firstDict hash c K) (St.fresh st) ops
  incr : St.Increasing (St.samplesOf (firstDict hash c K) st ops)
  ok : ∀ o ∈ St.samplesOf (firstDict hash c K) st ops, o.ok = true
  once : ∀ op ∈ ops, ∀ st, op ≠ .restart st
  small : ∀ a n, (firstDict hash c K).look (St.run (firstDict hash c K) st ops).ctx.st a = some n → n < 2 ^ 20
  acked : (St.samplesOf (firstDict hash c K) st ops).map (·.sample.data) = ackedOf es
  ids : ∃ m, (St.samplesOf (firstDict hash c K) st ops).map (·.sample.id) = List.range m

theorem FirstLife.told (h : FirstLife hash c K bw st ls s es) : ∃ ops, Told hash c K st s es ops := by
  obtain ⟨db, s0, hdb, h0, hrun⟩ := h.run
  obtain ⟨db', oracle, hfr, hre⟩ := h.dict
  obtain ⟨hpos, hK, hl20⟩ := h.lease
  have hbig : (K.length + 3) * c.lease < 2 ^ 56 := by
    have h1 : (K.length + 3) * c.lease ≤ (2 ^ 20 + 3) * 2 ^ 20 := Nat.mul_le_mul (by omega) hl20
    have h2 : (2 ^ 20 + 3) * 2 ^ 20 < 2 ^ 56 := by decide
    omega
  obtain ⟨st', hs1, hs2, -, hs3, hs4⟩ := good_start (hash := hash) (K := K) hbig (.inr hK) hfr oracle
  rw [hre] at hs1; cases hs1
  have hgood : (firstDict hash c K).Good st := ⟨hs2, hs3, by rw [hs3, hs4]; omega⟩
  have hlaw := first_lawful (c := c) (K := K) hpos h.hashes
  have hids := h.ids.2
  obtain ⟨e1, hv, hinc⟩ := C42_store_history (D := realDict hash c K) h.ids.1 hdb st ls h0 hrun hids
    (sane_of ls s0 h.once h.plain.times h.plain.orders)
  have hne := run_no_restart ls h.once hrun
  have honce : ∀ op ∈ opsOf es, ∀ st, op ≠ .restart st := by
    rintro op hop st rfl
    unfold opsOf at hop
    obtain ⟨e, he, hx⟩ := List.mem_filterMap.1 hop
    cases e with
    | returned d => cases hx
    | flushed fl o => simp only at hx; split at hx <;> cases hx
    | restarted st' => exact hne st' he
  obtain ⟨v, o, r⟩ := (first_agree (hash := hash) (c := c) (K := K)).run (opsOf es) (St.fresh st) hv (fun st hm => absurd rfl (honce _ hm st))
    (covered h.ids.1 hdb st h0 hrun (by omega) h.covers)
  have ho : St.samplesOf (firstDict hash c K) st (opsOf es) = St.samplesOf (realDict hash c K) st (opsOf es) := o
  have hr : St.run (firstDict hash c K) st (opsOf es) = St.run (realDict hash c K) st (opsOf es) := r
  have hsam : (St.samplesOf (realDict hash c K) st (opsOf es)).map (·.sample) = flushedOf es :=
    (offered_samples (D := realDict hash c K) (opsOf es) (St.fresh st) 0).trans (flushed_no_exit h.settled.ok)
  refine ⟨opsOf es, ⟨hlaw, hgood, e1.trans hr.symm, v, ho ▸ hinc, ?_, honce, ?_, ?_, ?_⟩⟩
  · rw [ho]
    have hs0 : s0.store = St.fresh st := by
      unfold init at h0
      split at h0 <;> cases h0
      rfl
    have := offered_ok ls 0 hrun h.settled.ok
    rw [hs0] at this
    exact this
  · intro a n hn
    obtain ⟨recs, so, hh, -⟩ := St.hist_run hlaw hgood (opsOf es) v
    have hg := hh.good
    have h1 := (hg.1.life.find_lt hn).1
    have h2 := hg.1.life.nl
    have h3 := hg.2.1
    omega
  · rw [ho]
    have h1 := (C42_exactly_once_in_order h.ids.1 hdb st ls h0 hrun (by omega)).2
    rw [lifeOf_self hne, h.settled.answered, h.settled.hand, h.settled.buffer] at h1
    simp only [List.append_nil] at h1
    rw [h1, ← hsam, List.map_map]; rfl
  · rw [ho]
    obtain ⟨m, hm⟩ := C42_consecutive h.ids.1 hdb st ls h0 hrun (by omega) h.once
    rw [h.settled.hand, h.settled.buffer] at hm
    simp only [List.append_nil] at hm
    exact ⟨m, by rw [← hm, ← hsam, List.map_map]; rfl⟩

theorem has_iff {o : St.Offered} {l : Verif.Label} (hp : l.pfx ≠ Pfx.unknown) : o.Has l ↔ ∃ l', Carries o.sample.data l' ∧ l'.encode = l.encode := by
  constructor
  · rintro ⟨l', h1 | rfl, h2⟩
    · exact ⟨l', h1, h2⟩
    · exact absurd ((C01_label_encode_eq_iff _ l).1 h2).2.1.symm hp
  · rintro ⟨l', h1, h2⟩
    exact ⟨l', .inl h1, h2⟩

/-- The scan has filters, and all ask for something (other than prefix 0). -/
def Filtered (sc : St.Scan) : Prop := sc.asked ≠ [] ∧ ∀ l ∈ sc.asked, l.pfx ≠ Pfx.unknown

theorem matches_iff {o : St.Offered} {sc : St.Scan} (hf : Filtered sc) : o.Matches sc ↔ o.sample.data.Answers sc := by
  unfold St.Offered.Matches Data.Answers
  constructor
  · rintro ⟨-, h⟩ l hl; exact (has_iff (hf.2 l hl)).1 (h l hl)
  · intro h; exact ⟨hf.1, fun l hl => (has_iff (hf.2 l hl)).2 (h l hl)⟩

open Classical in
theorem matching_data {os : List St.Offered} {E : St.Env} {sc : St.Scan} (hf : Filtered sc) :
    (St.matching os E sc).map (·.sample.data) = wantedOf (os.map (·.sample.data)) E sc := by
  unfold St.matching wantedOf
  rw [List.filter_map]
  congr 1
  refine List.filter_congr fun o _ => ?_
  simp only [Function.comp, decide_eq_decide]
  rw [matches_iff hf]
  exact Iff.rfl

theorem Told.aligned {ops : List (St.Op CState)} (h : Told hash c K st s es ops) {v : Bytes} (hv : AlignedData (ackedOf es) v) :
    St.Aligned (St.samplesOf (firstDict hash c K) st ops) v := by
  obtain ⟨m, hm⟩ := h.ids
  rw [← h.acked] at hv
  rcases hv with ⟨d, hd, hiv⟩ | hv
  · cases hos : St.samplesOf (firstDict hash c K) st ops with
    | nil => rw [hos] at hd; cases hd
    | cons o os =>
      rw [hos] at hd hm
      cases hd
      refine .inl ⟨o, by simp, h.ok o (by rw [hos]; simp), ?_, hiv⟩
      cases m with
      | zero => simp at hm
      | succ m => rw [List.range_succ_eq_map] at hm; exact (List.cons.inj hm).1
  · exact .inr fun o ho => hv _ (List.mem_map_of_mem ho)

theorem Told.exact {ops : List (St.Op CState)} (h : Told hash c K st s es ops) (E : St.Env) (hE : E.Fair) (hF : E.NoFaults) (sc : St.Scan)
    (hscope : sc.scope = Res.metrics ∨ sc.scope = Res.logs ∨ sc.scope = Res.traces) (ha : ∀ v ∈ E.views sc, AlignedData (ackedOf es) v) :
    St.scan (realDict hash c K) s.store E sc =
      if St.matching (St.samplesOf (firstDict hash c K) st ops) E sc = [] then .data (Dt.zero sc.scope)
      else St.merged E (St.payloads (St.picked sc (St.matching (St.samplesOf (firstDict hash c K) st ops) E sc)) sc.scope (E.views sc)) := by
  rw [← (first_agree (hash := hash) (c := c) (K := K)).scan, h.store]
  exact St.C29_small_store_partial (firstDict hash c K) st h.lawful first_injective h.good ops h.valid h.once h.small h.incr h.ok E hE hF sc hscope
    fun v hv => h.aligned (ha v hv)

/-- A range scan merges the wanted payloads. -/
theorem first_merged (h : FirstLife hash c K bw st ls s es) (E : St.Env) (hE : E.Fair) (hF : E.NoFaults) (sc : St.Scan)
    (hscope : sc.scope = Res.metrics ∨ sc.scope = Res.logs ∨ sc.scope = Res.traces) (hf : Filtered sc) (hr : sc.time.range.isSome)
    (ha : ∀ v ∈ E.views sc, AlignedData (ackedOf es) v) (hone : ∀ d ∈ wantedOf (ackedOf es) E sc, d.OneView (E.views sc)) :
    ∃ ps, ps.Perm (wantedOf (ackedOf es) E sc) ∧ (∀ p ∈ ps, p.signal = some sc.scope) ∧
      St.scan (realDict hash c K) s.store E sc = if wantedOf (ackedOf es) E sc = [] then .data (Dt.zero sc.scope) else St.merged E ps := by
  obtain ⟨ops, ht⟩ := h.told
  rw [ht.exact E hE hF sc hscope ha]
  have hpk : St.picked sc (St.matching (St.samplesOf (firstDict hash c K) st ops) E sc) = St.matching (St.samplesOf (firstDict hash c K) st ops) E sc := by
    unfold St.picked
    cases hrr : sc.time.range with
    | none => rw [hrr] at hr; cases hr
    | some _ => rfl
  rw [hpk]
  have hmd := matching_data (os := St.samplesOf (firstDict hash c K) st ops) (E := E) hf
  rw [ht.acked] at hmd
  have hsig : ∀ o ∈ St.matching (St.samplesOf (firstDict hash c K) st ops) E sc, o.sample.data.signal = some sc.scope := fun o ho => by
    obtain ⟨l, hl⟩ := List.exists_mem_of_ne_nil _ hf.1
    exact St.matches_signal (St.mem_matching.1 ho).2.1 hl (hf.2 l hl)
  have hone' : ∀ o ∈ St.matching (St.samplesOf (firstDict hash c K) st ops) E sc, St.OneView (E.views sc) o := fun o ho =>
    hone _ (hmd ▸ List.mem_map_of_mem ho)
  have hperm := St.payloads_perm (kind := sc.scope) hone' hsig
  rw [hmd] at hperm
  have hnil : St.matching (St.samplesOf (firstDict hash c K) st ops) E sc = [] ↔ wantedOf (ackedOf es) E sc = [] := by
    rw [← hmd, List.map_eq_nil_iff]
  have hsigd : ∀ p ∈ St.payloads (St.matching (St.samplesOf (firstDict hash c K) st ops) E sc) sc.scope (E.views sc), p.signal = some sc.scope := fun p hp => by
    have := hperm.mem_iff.1 hp
    rw [← hmd] at this
    obtain ⟨o, ho, rfl⟩ := List.mem_map.1 this
    exact hsig o ho
  simp only [hnil]
  exact ⟨_, hperm, hsigd, rfl⟩

/-- **C53** (partial). In the first process on an empty database, once everything is flushed: a range scan with filters returns
exactly the log records, spans or data points of the requests answered with success that carry all labels asked for and are filed
under the scanned views, each once. Missing: later processes (C29: they do not see what was written before), more labels than one
lease, views that do not start with the first sample (C28), scans without filters (C20). A metrics scan can panic in merging (C34). -/
theorem C53_range_partial (h : FirstLife hash c K bw st ls s es) (E : St.Env) (hE : E.Fair) (hF : E.NoFaults) (sc : St.Scan)
    (hscope : sc.scope = Res.metrics ∨ sc.scope = Res.logs ∨ sc.scope = Res.traces) (hf : Filtered sc) (hr : sc.time.range.isSome)
    (ha : ∀ v ∈ E.views sc, AlignedData (ackedOf es) v) (hone : ∀ d ∈ wantedOf (ackedOf es) E sc, d.OneView (E.views sc)) :
    (sc.scope = Res.metrics ∧ St.scan (realDict hash c K) s.store E sc = .panic) ∨
    ∃ out, St.scan (realDict hash c K) s.store E sc = .data (some out) ∧ out.items.Perm ((wantedOf (ackedOf es) E sc).flatMap Data.items) := by
  obtain ⟨ps, hperm, hsigd, he⟩ := first_merged h E hE hF sc hscope hf hr ha hone
  rw [he]
  by_cases hm : wantedOf (ackedOf es) E sc = []
  · right
    rw [if_pos hm, hm]
    rcases hscope with e | e | e <;> rw [e]
    · exact ⟨.metrics [], rfl, .nil⟩
    · exact ⟨.logs [], rfl, .nil⟩
    · exact ⟨.traces [], rfl, .nil⟩
  · rw [if_neg hm]
    have hps : ps ≠ [] := by rintro rfl; exact hm hperm.symm.eq_nil
    unfold St.merged
    cases hc : Dt.collapse E.P E.resOrder ps with
    | none =>
      left
      refine ⟨?_, rfl⟩
      rcases hscope with e | e | e
      · exact e
      · obtain ⟨ds, rfl⟩ := St.all_logs fun p hp => e ▸ hsigd p hp
        obtain ⟨out, h1, -⟩ := Dt.C33_logs E.P E.resOrder hE.res ds (by rintro rfl; exact hps rfl)
        rw [hc] at h1; cases h1
      · obtain ⟨ds, rfl⟩ := St.all_traces fun p hp => e ▸ hsigd p hp
        obtain ⟨out, h1, -⟩ := Dt.C33_traces E.P E.resOrder hE.res ds (by rintro rfl; exact hps rfl)
        rw [hc] at h1; cases h1
    | some r =>
      right
      cases r with
      | none =>
        exfalso
        rcases hscope with e | e | e
        · obtain ⟨ds, rfl⟩ := St.all_metrics fun p hp => e ▸ hsigd p hp
          obtain ⟨out, h1, -⟩ := Dt.C33_metrics E.P E.resOrder hE.res ds (by rintro rfl; exact hps rfl) _ hc
          cases h1
        · obtain ⟨ds, rfl⟩ := St.all_logs fun p hp => e ▸ hsigd p hp
          obtain ⟨out, h1, -⟩ := Dt.C33_logs E.P E.resOrder hE.res ds (by rintro rfl; exact hps rfl)
          rw [hc] at h1; cases h1
        · obtain ⟨ds, rfl⟩ := St.all_traces fun p hp => e ▸ hsigd p hp
          obtain ⟨out, h1, -⟩ := Dt.C33_traces E.P E.resOrder hE.res ds (by rintro rfl; exact hps rfl)
          rw [hc] at h1; cases h1
      | some out => exact ⟨out, rfl, (collapse_items hE.res hc).trans (hperm.flatMap_right _)⟩

/-- **C53** (partial), instant scans: the payload of the latest matching request answered with success, unchanged. -/
theorem C53_latest_partial (h : FirstLife hash c K bw st ls s es) (E : St.Env) (hE : E.Fair) (hF : E.NoFaults) (sc : St.Scan)
    (hscope : sc.scope = Res.metrics ∨ sc.scope = Res.logs ∨ sc.scope = Res.traces) (hf : Filtered sc) (hr : sc.time.range = none)
    (ha : ∀ v ∈ E.views sc, AlignedData (ackedOf es) v) (hone : ∀ d ∈ wantedOf (ackedOf es) E sc, d.OneView (E.views sc)) :
    St.scan (realDict hash c K) s.store E sc = .data (match (wantedOf (ackedOf es) E sc).getLast? with | none => Dt.zero sc.scope | some d => some d) := by
  obtain ⟨ops, ht⟩ := h.told
  rw [ht.exact E hE hF sc hscope ha]
  have hmd := matching_data (os := St.samplesOf (firstDict hash c K) st ops) (E := E) hf
  rw [ht.acked] at hmd
  rw [← hmd] at hone ⊢
  have hsig : ∀ o ∈ St.matching (St.samplesOf (firstDict hash c K) st ops) E sc, o.sample.data.signal = some sc.scope := fun o ho => by
    obtain ⟨l, hl⟩ := List.exists_mem_of_ne_nil _ hf.1
    exact St.matches_signal (St.mem_matching.1 ho).2.1 hl (hf.2 l hl)
  generalize St.matching (St.samplesOf (firstDict hash c K) st ops) E sc = M at *
  by_cases hm : M = []
  · subst hm; rfl
  · rw [if_neg hm]
    unfold St.picked
    rw [hr]
    simp only
    rw [List.getLast?_eq_some_getLast hm, List.getLast?_map, List.getLast?_eq_some_getLast hm]
    have hmem := List.getLast_mem hm
    rw [show (some (M.getLast hm)).toList = [M.getLast hm] from rfl, St.payloads_single (hone _ (List.mem_map_of_mem hmem)) (hsig _ hmem)]
    rfl

/-! ### The hypotheses can be met -/

/-- A hash that keeps short keys apart. -/
def toyHash (b : Bytes) : Nat := b.foldl (fun n x => n * 257 + x.toNat + 1) 0

/-- Two requests, answered and flushed. -/
def toyRun : List (Label CState) :=
  oneExport 0 (St.logAt 5 [97]) ++ oneExport 1 (St.logAt 7 [98]) ++ oneFlush { samples := [], commits := 5 }

def toyKeys : List Bytes :=
  [Res.unknown, Res.metrics, Res.logs, Res.traces].map (fun r => ({ resource := r } : Verif.Label).encode) ++
    (Tf.dataLabels (St.logAt 5 [97]) ++ Tf.dataLabels (St.logAt 7 [98])).map (·.encode)

set_option synthInstance.maxSize 1024 in
theorem toy_first : ∃ st s es, FirstLife toyHash deployed toyKeys 1000 st toyRun s es ∧ ackedOf es = [St.logAt 5 [97], St.logAt 7 [98]] := by
  have hre : (reopen deployed KV.empty (fun _ => (true, fun _ => false))).isSome = true := by decide +kernel
  obtain ⟨st, hst⟩ := Option.isSome_iff_exists.1 hre
  have key : ∀ st, reopen deployed KV.empty (fun _ => (true, fun _ => false)) = some st →
      ((init 1000 st KV.empty).bind fun s0 => (run (realDict toyHash deployed toyKeys) 1000 s0 toyRun).map fun r =>
        (unanswered r.1, (inHand r.1).length, (buffered r.1).length, r.2.map fun e => match e with | .flushed _ o => some o | _ => none, ackedOf r.2)) =
        some ([], 0, 0, [none, none, some .ok], [St.logAt 5 [97], St.logAt 7 [98]]) := by
    have : ((reopen deployed KV.empty (fun _ => (true, fun _ => false))).bind fun st => (init 1000 st KV.empty).bind fun s0 =>
      (run (realDict toyHash deployed toyKeys) 1000 s0 toyRun).map fun r =>
        (unanswered r.1, (inHand r.1).length, (buffered r.1).length, r.2.map fun e => match e with | .flushed _ o => some o | _ => none, ackedOf r.2)) =
        some ([], 0, 0, [none, none, some .ok], [St.logAt 5 [97], St.logAt 7 [98]]) := by decide +kernel
    intro st h
    rw [h] at this
    exact this
  have k := key st hst
  cases h0 : init 1000 st KV.empty with
  | none => rw [h0] at k; cases k
  | some s0 =>
    rw [h0] at k
    simp only [Option.bind_some] at k
    cases h1 : run (realDict toyHash deployed toyKeys) 1000 s0 toyRun with
    | none => rw [h1] at k; cases k
    | some r =>
      obtain ⟨s, es⟩ := r
      rw [h1] at k
      simp only [Option.map_some, Option.some.injEq, Prod.mk.injEq] at k
      obtain ⟨k1, k2, k3, k4, k5⟩ := k
      refine ⟨st, s, es, ⟨by decide +kernel, by decide +kernel, ⟨_, _, fun s => rfl, hst⟩, ⟨_, s0, rfl, h0, h1⟩, by decide +kernel, by simp [toyRun, oneExport, oneFlush], ⟨?_, ?_⟩, ⟨by decide +kernel, ?_⟩,
        ⟨k1, List.eq_nil_of_length_eq_zero k2, List.eq_nil_of_length_eq_zero k3, ?_⟩⟩, k5⟩
      · intro t d hm
        simp only [toyRun, oneExport, oneFlush, List.cons_append, List.nil_append, List.mem_cons, Label.call.injEq, List.not_mem_nil, or_false, reduceCtorEq, false_or] at hm
        rcases hm with ⟨-, rfl⟩ | ⟨-, rfl⟩ <;> exact logAt_times (by decide)
      · intro fl hm
        simp only [toyRun, oneExport, oneFlush, List.cons_append, List.nil_append, List.mem_cons, Label.save.injEq, List.not_mem_nil, or_false, reduceCtorEq, false_or] at hm
        subst hm
        exact ⟨fun _ => .refl _, fun _ => .refl _, fun _ => .refl _⟩
      · intro t d hm l hl
        have hd : d = St.logAt 5 [97] ∨ d = St.logAt 7 [98] := by
          simp only [toyRun, oneExport, oneFlush, List.cons_append, List.nil_append, List.mem_cons, Label.call.injEq, List.not_mem_nil, or_false, reduceCtorEq, false_or] at hm
          rcases hm with ⟨-, rfl⟩ | ⟨-, rfl⟩ <;> simp
        unfold toyKeys
        refine List.mem_append_right _ (List.mem_map_of_mem ?_)
        rcases hd with rfl | rfl
        · exact List.mem_append_left _ (Tf.mem_dataLabels.2 hl)
        · exact List.mem_append_right _ (Tf.mem_dataLabels.2 hl)
      · intro fl o hm
        have : some o ∈ es.map fun e => match e with | .flushed _ o => some o | _ => none := List.mem_map.2 ⟨_, hm, rfl⟩
        rw [k4] at this
        simpa using this

/-- The scan for severity `a` in the hour of both requests. -/
def toyScan : St.Scan := { scope := Res.logs, filters := [.base Pfx.logsLevel [97]], time := { range := some (0, 10) } }

theorem toy_answers : (St.logAt 5 [97]).Answers toyScan ∧ ¬ (St.logAt 7 [98]).Answers toyScan := by
  have hask : toyScan.asked = [{ resource := Res.logs, pfx := Pfx.logsLevel, key := [97] }] := rfl
  constructor
  · intro l hl
    rw [hask, List.mem_singleton] at hl
    exact ⟨l, Tf.mem_dataLabels.1 (by subst hl; decide +kernel), rfl⟩
  · intro h
    obtain ⟨l', h1, h2⟩ := h { resource := Res.logs, pfx := Pfx.logsLevel, key := [97] } (by rw [hask]; simp)
    have h3 : l'.encode ∈ (Tf.dataLabels (St.logAt 7 [98])).map (·.encode) := List.mem_map_of_mem (Tf.mem_dataLabels.2 h1)
    rw [h2] at h3
    revert h3
    decide +kernel

theorem toy_view : (St.logAt 5 [97]).InView St.hourView := by
  have : St.Offered.InView ⟨0, { id := 0, data := St.logAt 5 [97] }, true⟩ St.hourView := by
    rw [St.inView_iff (by decide +kernel)]; decide +kernel
  exact this

open Classical in
/-- All hypotheses of `C53_range_partial` hold; the answer has the record of the first request only. -/
theorem toy_range : ∃ st s es out, FirstLife toyHash deployed toyKeys 1000 st toyRun s es ∧
    St.scan (realDict toyHash deployed toyKeys) s.store St.toyEnv toyScan = .data (some out) ∧ out.items.Perm (St.logAt 5 [97]).items := by
  obtain ⟨st, s, es, h, ha⟩ := toy_first
  have hw : wantedOf (ackedOf es) St.toyEnv toyScan = [St.logAt 5 [97]] := by
    rw [ha]
    unfold wantedOf
    have h1 : ∃ v ∈ St.toyEnv.views toyScan, (St.logAt 5 [97]).InView v := ⟨St.hourView, List.mem_singleton_self _, toy_view⟩
    simp [toy_answers.1, toy_answers.2, h1]
  have hviews : St.toyEnv.views toyScan = [St.hourView] := rfl
  rcases C53_range_partial h St.toyEnv St.toyEnv_fair St.toyEnv_noFaults toyScan (.inr (.inl rfl))
      ⟨by decide, by intro l hl; rw [show toyScan.asked = [{ resource := Res.logs, pfx := Pfx.logsLevel, key := [97] }] from rfl, List.mem_singleton] at hl; subst hl; decide⟩ rfl
      (fun v hv => by rw [hviews, List.mem_singleton] at hv; subst hv; rw [ha]; exact .inl ⟨_, rfl, toy_view⟩)
      (fun d hd => by rw [hw, List.mem_singleton] at hd; subst hd; exact ⟨[], St.hourView, [], rfl, toy_view, by simp⟩) with ⟨h1, -⟩ | ⟨out, h1, h2⟩
  · exact absurd h1 (by decide)
  · rw [hw] at h2
    exact ⟨st, s, es, out, h, h1, by simpa using h2⟩

/-! ## Later processes -/

theorem only_agree : St.Agree (realDict hash c K) (onlyDict hash c K) K where
  tr := fun st k hk => by simp only [onlyDict, realDict, if_pos hk]
  look := rfl
  keyOf := rfl

/-- **C53** (partial), any number of processes, flushes cut off anywhere: with the dictionary of the code, a scan returns nothing,
an error, or payloads of samples handed to the store that are in a scanned view and match all filters, or whose id follows that of
such a sample (C28). Missing: what becomes of the samples of earlier processes (C29), labels in several shards (`hk`). -/
theorem C53_sound_partial (hpos : 0 < c.lease) (hinj : ∀ a ∈ K, ∀ b ∈ K, hash a = hash b → a = b) (hbw : 0 < bw) {db : KV} (hdb : db Sq.seqKey = none)
    {st : CState} (hg : GoodState hash c K st) {ls : List (Label CState)} {s0 s : Svc CState} {es : List (Event CState)}
    (h0 : init bw st db = some s0) (h : run (realDict hash c K) bw s0 ls = some (s, es)) (hb : used bw ls + bw < 2 ^ 44)
    (hs : Sane (realDict hash c K) bw s0 ls) (hK : Covers K ls) (E : St.Env) (hE : E.Fair) (hF : ∀ k, E.findFault k = false) (sc : St.Scan) (k : Nat)
    (hk : ∀ l ∈ sc.asked, ∀ n, findKey s.store.ctx.st.w l.encode = some n → n / Bt.shardWidth = k) :
    (∃ r, St.scan (realDict hash c K) s.store E sc = r ∧ (r = .err ∨ r = .undefined ∨ r = .data none ∨ r = .data (Dt.zero sc.scope))) ∨
    ∃ ps, St.scan (realDict hash c K) s.store E sc = St.merged E ps ∧
      ∀ p ∈ ps, p = .none ∨ ∃ o ∈ St.samplesOf (realDict hash c K) st (opsOf es), o.sample ∈ flushedOf es ∧ ∃ v ∈ E.views sc, o.InView v ∧ o.sample.data = p ∧ p.signal = some sc.scope ∧
        ∃ m ∈ St.samplesOf (realDict hash c K) st (opsOf es), m.Matches sc ∧ m.InView v ∧ (o = m ∨ o.sample.id = m.sample.id + 1) := by
  obtain ⟨e1, hv, hinc⟩ := C42_store_history (D := realDict hash c K) hbw hdb st ls h0 h hb hs
  obtain ⟨v, o, r⟩ := (only_agree (hash := hash) (c := c) (K := K)).run (opsOf es) (St.fresh st) hv (fun st _ h => h)
    (covered hbw hdb st h0 h (by omega) hK)
  have ho : St.samplesOf (onlyDict hash c K) st (opsOf es) = St.samplesOf (realDict hash c K) st (opsOf es) := o
  have hr : St.run (onlyDict hash c K) st (opsOf es) = St.run (realDict hash c K) st (opsOf es) := r
  have := St.C28_match_or_next (onlyDict hash c K) st (only_lawful hpos hinj) only_injective hg (opsOf es) v (ho ▸ hinc) E hE hF sc k
    (by rw [hr, ← e1]; exact hk)
  rw [ho, hr, ← e1, (only_agree (hash := hash) (c := c) (K := K)).scan] at this
  refine this.imp_right ?_
  rintro ⟨ps, h1, h2⟩
  refine ⟨ps, h1, fun p hp => (h2 p hp).imp_right ?_⟩
  rintro ⟨x, hx, v, hv, h3⟩
  refine ⟨x, hx, ?_, v, hv, h3⟩
  have h4 : x.sample ∈ (St.samplesOf (realDict hash c K) st (opsOf es)).map (·.sample) := List.mem_map_of_mem hx
  unfold St.samplesOf at h4
  rw [offered_samples] at h4
  exact (ops_sublist es).subset h4

end Verif.Sv
