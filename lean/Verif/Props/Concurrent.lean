import Verif.Lemmas.Concurrent
import Verif.Props.Store2
/-!
# C58: scanning while samples are flushed
-/
namespace Verif.St
open Tm Tf
open Bt (shardWidth)
variable {σ : Type} {D : Dict σ} {st : σ}

/-! ### A store that does not change -/

theorem filterLoopAt_const (D : Dict σ) (s : Store σ) (E : Env) (scope : Int) (i : Nat) (fs : List Filter) (r : Bm) :
    filterLoopAt D (fun _ => s) E scope i fs r = filterLoop D s.ctx.st E scope fs r := by
  induction fs generalizing i r with
  | nil => rfl
  | cons f fs ih =>
    unfold filterLoopAt filterLoop
    cases f.label scope with
    | none => exact ih _ _
    | some l =>
      simp only
      cases find D s.ctx.st E l with
      | col n => exact ih _ _
      | notFound => rfl
      | fault => rfl

theorem rowsLoopAt_const (s : Store σ) (views : List Bytes) (i : Nat) (m : AMap Nat (List Nat)) (r : Option Bm) :
    rowsLoopAt (fun _ => s) views i m r = Sh.rowsLoop s.idx views m r := by
  induction m generalizing i r with
  | nil => rfl
  | cons e m ih =>
    obtain ⟨k, f⟩ := e
    unfold rowsLoopAt Sh.rowsLoop
    by_cases h : k ∉ s.idx.opened
    · simp only [if_pos h]
    · simp only [if_neg h, ih]
      rfl

theorem unmarshalAt_const (s : Store σ) (fault : Bytes → Bool) (kind : Int) (wanted : Bm) (i : Nat) (vs : List Bytes) :
    unmarshalAt (fun _ => s) fault kind wanted i vs = Df.unmarshal s.frame fault kind wanted vs := by
  induction vs generalizing i with
  | nil => rfl
  | cons v vs ih =>
    unfold unmarshalAt Df.unmarshal
    simp only [ih]
    rfl

/-- The model of a scan while the store changes is the model of a scan when it does not. -/
theorem scanDuring_const (D : Dict σ) (s : Store σ) (E : Env) (sc : Scan) : scanDuring D (fun _ => s) E sc = scan D s E sc := by
  unfold scanDuring scan compileFiltersAt compileFilters
  simp only [filterLoopAt_const, rowsLoopAt_const, readSamplesAt, readSamples, unmarshalAt_const, Sh.Store.rows]
  rfl

/-! ### The steps of a scan -/

section
variable {now : Nat → Store σ} {E : Env}

theorem filterLoopAt_spec (hF : ∀ k, E.findFault k = false) {str : σ} {R : Nat} (hgr : ∀ i ≤ R, Grows D (now i).ctx.st str)
    (scope : Int) (fs : List Filter) (i : Nat) (hi : i + fs.length ≤ R) (r : Bm) :
    filterLoopAt D now E scope i fs r = filterLoop D str E scope fs r ∨
    (filterLoopAt D now E scope i fs r = some [] ∧ ∃ l ∈ fs.filterMap (·.label scope), ∃ j ≤ R, D.look (now j).ctx.st l.encode = none) := by
  induction fs generalizing i r with
  | nil => exact .inl rfl
  | cons f fs ih =>
    rw [List.length_cons] at hi
    unfold filterLoopAt filterLoop
    cases hl : f.label scope with
    | none =>
      simp only
      rw [List.filterMap_cons_none hl]
      exact ih (i + 1) (by omega) r
    | some l =>
      simp only [find_noFault hF]
      rw [List.filterMap_cons_some hl]
      cases hk : D.look (now i).ctx.st l.encode with
      | none => exact .inr ⟨rfl, l, List.mem_cons_self, i, by omega, hk⟩
      | some n =>
        simp only [hgr i (by omega) _ _ hk]
        rcases ih (i + 1) (by omega) (r.add n) with h | ⟨h, l', hl', x⟩
        · exact .inl h
        · exact .inr ⟨h, l', List.mem_cons_of_mem _ hl', x⟩

theorem compileFiltersAt_spec (hF : ∀ k, E.findFault k = false) {str : σ} {sc : Scan} {R : Nat}
    (hgr : ∀ i ≤ R, Grows D (now i).ctx.st str) (hR : sc.filters.length ≤ R) :
    compileFiltersAt D now E sc = compileFilters D str E sc ∨
    (compileFiltersAt D now E sc = some [] ∧ ∃ l ∈ sc.asked, ∃ j ≤ R, D.look (now j).ctx.st l.encode = none) := by
  unfold compileFiltersAt compileFilters Scan.asked
  by_cases h : sc.filters = []
  · simp only [if_pos h, find_noFault hF]
    cases hk : D.look (now 0).ctx.st (Label.encode { resource := sc.scope }) with
    | none => exact .inr ⟨rfl, _, List.mem_singleton_self _, 0, by omega, hk⟩
    | some n => simp only [hgr 0 (by omega) _ _ hk]; exact .inl trivial
  · simp only [if_neg h]
    exact filterLoopAt_spec hF hgr sc.scope sc.filters 0 (by omega) []

theorem groupCols_single {cols : List Nat} {k : Nat} (h : ∀ n ∈ cols, n / shardWidth = k) : (Sh.groupCols cols).length ≤ 1 := by
  have h1 : ∀ e ∈ Sh.groupCols cols, e.1 = k := fun e he => by
    obtain ⟨⟨c, hc, e1⟩, -⟩ := Sh.mem_groupCols.1 he
    rw [← e1]; exact h c hc
  have h2 := Sh.groupCols_ok cols
  unfold AMap.Ok at h2
  generalize Sh.groupCols cols = m at h1 h2
  match m with
  | [] => simp
  | [_] => simp
  | a :: b :: _ =>
    have ha := h1 a (by simp)
    have hb := h1 b (by simp)
    simp [ha, hb] at h2

theorem rowsLoopAt_single (now : Nat → Store σ) (views : List Bytes) (i : Nat) {m : AMap Nat (List Nat)} (h : m.length ≤ 1) :
    rowsLoopAt now views i m none = (now i).idx.rows views m := by
  match m with
  | [] => rfl
  | [(k, f)] => rfl
  | _ :: _ :: _ => simp at h

end

open Classical in
/-- Reading one aligned view, when the wanted samples are in the data frame. -/
theorem Hist.readView_framed {s : Store σ} {recs : List Rec} {so : List Sh.Op} (h : Hist D s [] [] recs so) {all : List Offered}
    (hi : Increasing all) (hsub : ∀ o ∈ recs.flatMap Rec.offered, ∃ o' ∈ all, o'.sample = o.sample)
    (hi' : Increasing (recs.flatMap Rec.offered)) {fault : Bytes → Bool} (hf : ∀ v, fault v = false) {v : Bytes}
    (ha : Aligned (recs.flatMap Rec.offered) v) (kind : Int) (W : List Offered) (hW : W.Sublist all)
    (hfr : ∀ w ∈ W, ∃ c ∈ recs, c.framed = true ∧ ∃ o ∈ c.offered, o.sample = w.sample) :
    Df.readView s.frame fault kind (W.map (·.sample.id)) v =
      .ok ((W.filter fun o => decide (o.InView v ∧ o.sample.data.signal = some kind)).map fun o => (o.sample.id, o.sample.data)) := by
  have hin : ∀ w ∈ W, w.InView v → norm w.sample ∈ (Df.batches (recs.map (·.call)) v).flatten := fun w hw hv => by
    obtain ⟨c, hc, hcf, o, ho, e⟩ := hfr w hw
    rw [← e]
    refine h.framed_batch hc hcf ho ?_
    unfold Offered.InView at hv ⊢
    rw [e]; exact hv
  have hout : ∀ x ∈ (Df.batches (recs.map (·.call)) v).flatten, ∀ w ∈ W, w.sample.id = x.id → w.InView v ∧ x = norm w.sample := by
    intro x hx w hw e
    obtain ⟨c, hc, o, ho, hv, rfl⟩ := mem_batches hx
    obtain ⟨o', ho', e'⟩ := hsub o (List.mem_flatMap.2 ⟨c, hc, ho⟩)
    have : w = o' := unique hi (hW.subset hw) ho' (by rw [e, e']; rfl)
    subst this
    unfold Offered.InView at hv ⊢
    rw [e']; exact ⟨hv, rfl⟩
  unfold Df.readView
  rw [hf v, h.frame']
  simp only [Bool.false_eq_true, if_false]
  by_cases hne : Df.batches (recs.map (·.call)) v = []
  · rw [Df.run_view _ h.valid, hne]
    have hnone : (W.filter fun o => decide (o.InView v ∧ o.sample.data.signal = some kind)) = [] := by
      rw [List.filter_eq_nil_iff]
      intro o ho hh
      have := hin o ho (of_decide_eq_true hh).1
      rw [hne] at this; simp at this
    rw [hnone]; rfl
  · obtain ⟨r, hr, hrow, -⟩ := Df.C23_row_is_id_partial _ h.valid v (batches_increasing hi' v) (h.shift_zero hi' ha) hne
    rw [hr]
    have hbuild := hr
    rw [Df.run_view _ h.valid] at hbuild
    have hset : (r.set kind).and (W.map (·.sample.id)) =
        (W.filter fun o => decide (o.InView v ∧ o.sample.data.signal = some kind)).map (·.sample.id) := by
      refine Bm.ext (Bm.and_ok (set_ok_build hbuild kind)) (increasing_filter (List.Pairwise.sublist hW hi) _) fun i => ?_
      rw [Bm.mem_and, Df.mem_set_build _ kind i r hbuild, List.mem_map, List.mem_map]
      constructor
      · rintro ⟨⟨x, hx, rfl, hk⟩, o, ho, hid⟩
        obtain ⟨hv, rfl⟩ := hout x hx o ho hid
        exact ⟨o, List.mem_filter.2 ⟨ho, decide_eq_true ⟨hv, hk⟩⟩, rfl⟩
      · rintro ⟨o, ho, rfl⟩
        obtain ⟨ho1, ho2⟩ := List.mem_filter.1 ho
        obtain ⟨hv, hk⟩ := of_decide_eq_true ho2
        exact ⟨⟨norm o.sample, hin o ho1 hv, rfl, hk⟩, o, ho1, rfl⟩
    simp only
    rw [hset]
    split
    · rename_i he
      rw [List.map_eq_nil_iff] at he
      rw [he]; rfl
    · refine readRows_map _ fun o ho => ?_
      obtain ⟨ho1, ho2⟩ := List.mem_filter.1 ho
      obtain ⟨hv, hk⟩ := of_decide_eq_true ho2
      exact ⟨hrow (norm o.sample) (hin o ho1 hv), hk⟩

open Classical in
theorem unmarshalAt_exact {now : Nat → Store σ} {fault : Bytes → Bool} {kind : Int} {W : List Offered} (views : List Bytes) (i : Nat)
    (h : ∀ j, i ≤ j → ∀ v ∈ views, Df.readView (now j).frame fault kind (W.map (·.sample.id)) v =
      .ok ((W.filter fun o => decide (o.InView v ∧ o.sample.data.signal = some kind)).map fun o => (o.sample.id, o.sample.data))) :
    ∃ l, unmarshalAt now fault kind (W.map (·.sample.id)) i views = .ok l ∧ l.map (·.2) = payloads W kind views := by
  induction views generalizing i with
  | nil => exact ⟨[], rfl, rfl⟩
  | cons v vs ih =>
    obtain ⟨l, h1, h2⟩ := ih (i + 1) fun j hj v hv => h j (by omega) v (List.mem_cons_of_mem _ hv)
    refine ⟨(W.filter fun o => decide (o.InView v ∧ o.sample.data.signal = some kind)).map (fun o => (o.sample.id, o.sample.data)) ++ l,
      ?_, ?_⟩
    · rw [unmarshalAt, h i (Nat.le_refl _) v List.mem_cons_self, h1]
    · rw [List.map_append, List.map_map, h2]
      unfold payloads
      rw [List.flatMap_cons]
      rfl

/-- What a scan made while samples are flushed returns, and a moment at which a scan would have returned the same. -/
theorem scanDuring_spec (hD : D.Lawful) (hI : D.Injective) (hg : D.Good st) (ops : List (Op σ)) (fls : List Flush)
    (hv : Valid D (fresh st) (ops ++ fls.map .flush)) (hi : Increasing (samplesOf D st (ops ++ fls.map .flush)))
    (t : Nat → Moment σ) (ht : Course D (run D st ops) fls t)
    (E : Env) (hE : E.Fair) (hF : E.NoFaults) (sc : Scan)
    (hscope : sc.scope = Res.metrics ∨ sc.scope = Res.logs ∨ sc.scope = Res.traces) (k : Nat)
    (hk : ∀ l ∈ sc.asked, ∀ n, D.look (run D st (ops ++ fls.map .flush)).ctx.st l.encode = some n → n / shardWidth = k)
    (hopen : k ∈ (run D st ops).idx.opened ∨ samplesOf D st ops = [])
    (ha : ∀ v ∈ E.views sc, (∃ o ∈ samplesOf D st ops, o.ok = true ∧ o.sample.id = 0 ∧ o.InView v) ∨
      ∀ o ∈ samplesOf D st (ops ++ fls.map .flush), ¬ o.InView v) :
    ∃ os : List Offered, os.Sublist (samplesOf D st (ops ++ fls.map .flush)) ∧
      (∀ o ∈ os, o.Matches sc ∧ ∃ v ∈ E.views sc, o.InView v) ∧
      (∀ o ∈ samplesOf D st ops, o.ok = true → o.Matches sc → (∃ v ∈ E.views sc, o.InView v) → o ∈ os) ∧
      scanDuring D (fun i => (t i).store D (run D st ops) fls) E sc =
        (if os = [] then .data (Dt.zero sc.scope) else merged E (payloads (picked sc os) sc.scope (E.views sc))) ∧
      ∃ i ≤ sc.filters.length + 1, scanDuring D (fun i => (t i).store D (run D st ops) fls) E sc =
        scan D ((t i).store D (run D st ops) fls) E sc := by
  obtain ⟨v1, v2⟩ := valid_append.1 hv
  have v2 : Valid D (run D st ops) (fls.map .flush) := v2
  have hs : Sane D (run D st ops) := sane_run hD ⟨hg, rfl⟩ v1
  have hend : run D st (ops ++ fls.map .flush) = flushed D (run D st ops) fls := by
    rw [flushed_eq]; unfold run; rw [List.foldl_append]
  rw [hend] at hk
  have hat := fun i => moment_hist hD hg hv (ht.possible i)
  obtain ⟨rest0, hrest0⟩ := offered_append D (fresh st) 0 ops (fls.map .flush)
  have hstart : ∀ o ∈ samplesOf D st ops, o ∈ samplesOf D st (ops ++ fls.map .flush) := fun o ho => by
    unfold samplesOf; rw [hrest0]; exact List.mem_append_left _ ho
  have hbefore : ∀ i recs so, At D st ops fls (t i) recs so → ∀ o ∈ samplesOf D st ops, o ∈ recs.flatMap Rec.offered := by
    intro i recs so h o ho
    rw [h.samples]
    obtain ⟨rest, e⟩ := offered_append D (fresh st) 0 ops (((t i).done fls).map .flush)
    unfold samplesOf; rw [e]; exact List.mem_append_left _ ho
  have hstrip : ∀ i recs so, At D st ops fls (t i) recs so → ∃ rest,
      (samplesOf D st (ops ++ fls.map .flush)).map (fun o => (o.res, o.sample)) =
        (recs.flatMap Rec.offered).map (fun o => (o.res, o.sample)) ++ rest := by
    intro i recs so h
    rw [h.samples]
    exact ((t i).starts fls).offered D (fresh st) 0 ops
  have hsub : ∀ i recs so, At D st ops fls (t i) recs so → ∀ o ∈ recs.flatMap Rec.offered,
      ∃ o' ∈ samplesOf D st (ops ++ fls.map .flush), o'.res = o.res ∧ o'.sample = o.sample := by
    intro i recs so h o ho
    obtain ⟨rest, e⟩ := hstrip i recs so h
    have : (o.res, o.sample) ∈ (samplesOf D st (ops ++ fls.map .flush)).map (fun o => (o.res, o.sample)) := by
      rw [e]; exact List.mem_append_left _ (List.mem_map.2 ⟨o, ho, rfl⟩)
    obtain ⟨o', ho', e'⟩ := List.mem_map.1 this
    exact ⟨o', ho', congrArg Prod.fst e', congrArg Prod.snd e'⟩
  have hinc : ∀ i recs so, At D st ops fls (t i) recs so → Increasing (recs.flatMap Rec.offered) := by
    intro i recs so h
    obtain ⟨rest, e⟩ := hstrip i recs so h
    have h1 : ((samplesOf D st (ops ++ fls.map .flush)).map (fun o => (o.res, o.sample))).Pairwise fun a b => a.2.id < b.2.id := by
      rw [List.pairwise_map]; exact hi
    rw [e, List.pairwise_append, List.pairwise_map] at h1
    exact h1.1
  have hkm : ∀ i, ∀ l ∈ sc.asked, ∀ n, D.look ((t i).store D (run D st ops) fls).ctx.st l.encode = some n → n / shardWidth = k :=
    fun i l hl n hn => hk l hl n (Moment.grows_end hD hs v2 (ht.possible i) _ _ hn)
  have hgr : ∀ i j, i ≤ j → Grows D ((t i).store D (run D st ops) fls).ctx.st ((t j).store D (run D st ops) fls).ctx.st :=
    fun i j h => Moment.grows hD hs v2 (ht.possible i) (ht.possible j) (ht.forward i j h)
  have halign : ∀ i recs so, At D st ops fls (t i) recs so → ∀ v ∈ E.views sc, Aligned (recs.flatMap Rec.offered) v := by
    intro i recs so h v hv'
    rcases ha v hv' with ⟨o, ho, x⟩ | hn
    · exact .inl ⟨o, hbefore i recs so h o ho, x⟩
    · refine .inr fun o ho hov => ?_
      obtain ⟨o', ho', -, e⟩ := hsub i recs so h o ho
      refine hn o' ho' ?_
      unfold Offered.InView at hov ⊢
      rw [e]; exact hov
  generalize hnow : (fun i => (t i).store D (run D st ops) fls) = now
  have hn : ∀ i, (t i).store D (run D st ops) fls = now i := fun i => by rw [← hnow]
  simp only [hn]
  -- the row moment
  obtain ⟨recs, so, hR⟩ := hat (sc.filters.length + 1)
  have hH := hR.hist
  rw [hn] at hH
  have hopenR : samplesOf D st ops ≠ [] → k ∈ (now (sc.filters.length + 1)).idx.opened := fun hne => by
    rw [← hn]
    exact (Moment.between hD hs v2 (ht.possible _)).2.2.1 k (hopen.resolve_right hne)
  have hkR := hkm (sc.filters.length + 1)
  rw [hn] at hkR
  have hcompl : ∀ cols, compileFilters D (now (sc.filters.length + 1)).ctx.st E sc = some cols → ∀ o ∈ samplesOf D st ops, o.ok = true →
      o.Matches sc → (∃ v ∈ E.views sc, o.InView v) →
      cols ≠ [] ∧ o.sample.id ∈ ((now (sc.filters.length + 1)).idx.rows (E.views sc) (E.colOrder (Sh.groupCols cols))).getD [] := by
    rintro cols hc o ho hok hm ⟨v, hv', hiv⟩
    refine hH.found_complete hE hF.find (fun l hl n hn => ?_) (hbefore _ _ _ hR o ho) hok hm hv' hiv hc
    rw [hkR l hl n hn]
    exact hopenR (List.ne_nil_of_mem ho)
  rcases compileFiltersAt_spec (D := D) (now := now) (str := (now (sc.filters.length + 1)).ctx.st) (sc := sc) (R := sc.filters.length + 1)
    hF.find (fun i hi => by rw [← hn, ← hn]; exact hgr i _ hi) (by omega) with hc | ⟨hc, l, hl, j, hj, hlook⟩
  · obtain ⟨cols, hcc, -, h3⟩ := compileFilters_spec (D := D) (st := (now (sc.filters.length + 1)).ctx.st) hF.find sc
    have key : ∃ os : List Offered, os.Sublist (samplesOf D st (ops ++ fls.map .flush)) ∧
        (∀ o ∈ os, o.Matches sc ∧ ∃ v ∈ E.views sc, o.InView v) ∧
        (∀ o ∈ samplesOf D st ops, o.ok = true → o.Matches sc → (∃ v ∈ E.views sc, o.InView v) → o ∈ os) ∧
        ∀ now' : Nat → Store σ, compileFiltersAt D now' E sc = some cols → now' (sc.filters.length + 1) = now (sc.filters.length + 1) →
          (∀ j, sc.filters.length + 1 ≤ j → ∃ j', sc.filters.length + 1 ≤ j' ∧ now' j = now j') →
          scanDuring D now' E sc =
            if os = [] then .data (Dt.zero sc.scope) else merged E (payloads (picked sc os) sc.scope (E.views sc)) := by
      by_cases hcn : cols = []
      · refine ⟨[], List.nil_sublist _, by simp, fun o ho hok hm hvv => ?_, fun now' h1 _ _ => ?_⟩
        · exact absurd hcn (hcompl cols hcc o ho hok hm hvv).1
        · unfold scanDuring
          rw [h1]
          simp only [if_pos hcn, if_pos]
      · have hsingle : (E.colOrder (Sh.groupCols cols)).length ≤ 1 := by
          rw [(hE.cols _).length_eq]
          refine groupCols_single (k := k) fun n hn' => ?_
          obtain ⟨l, hl, hln⟩ := ((h3 n).1 hn').2
          exact hkR l hl n hln
        have hcompl' := hcompl cols hcc
        have hsound := fun u (hu : u ∈ ((now (sc.filters.length + 1)).idx.rows (E.views sc) (E.colOrder (Sh.groupCols cols))).getD []) =>
          hH.found_sound hI (hinc _ _ _ hR) hE hF.find hkR hcc hu
        have hokids := ids_ok (now (sc.filters.length + 1)) (E.views sc) (E.colOrder (Sh.groupCols cols))
        generalize hrows : (now (sc.filters.length + 1)).idx.rows (E.views sc) (E.colOrder (Sh.groupCols cols)) = rows
          at hcompl' hsound hokids
        -- the samples found
        let os := (samplesOf D st (ops ++ fls.map .flush)).filter fun o => decide (o.sample.id ∈ rows.getD [])
        have hos : os.Sublist (samplesOf D st (ops ++ fls.map .flush)) := List.filter_sublist
        have hmos : ∀ o, o ∈ os ↔ o ∈ samplesOf D st (ops ++ fls.map .flush) ∧ o.sample.id ∈ rows.getD [] := fun o => by
          simp only [os, List.mem_filter, decide_eq_true_eq]
        have hfound : ∀ o ∈ os, ∃ c ∈ recs, c.framed = true ∧ ∃ o' ∈ c.offered, o'.res = o.res ∧ o'.sample = o.sample ∧
            o'.Matches sc ∧ ∃ v ∈ E.views sc, o'.InView v := by
          intro o ho
          obtain ⟨h1, h2⟩ := (hmos o).1 ho
          obtain ⟨c, hc, hcf, o', ho', hid, hm, hvv⟩ := hsound _ h2
          obtain ⟨o'', ho'', e1, e2⟩ := hsub _ _ _ hR o' (List.mem_flatMap.2 ⟨c, hc, ho'⟩)
          have : o'' = o := unique hi ho'' h1 (by rw [e2]; exact hid)
          subst this
          exact ⟨c, hc, hcf, o', ho', e1.symm, e2.symm, hm, hvv⟩
        have hids : rows.getD [] = os.map (·.sample.id) := by
          refine Bm.ext hokids (increasing_filter hi _) fun u => ?_
          rw [List.mem_map]
          constructor
          · intro hu
            obtain ⟨c, hc, hcf, o', ho', hid, -, -⟩ := hsound _ hu
            obtain ⟨o'', ho'', e1, e2⟩ := hsub _ _ _ hR o' (List.mem_flatMap.2 ⟨c, hc, ho'⟩)
            have e3 : o''.sample.id = u := by rw [e2]; exact hid
            exact ⟨o'', (hmos _).2 ⟨ho'', by rw [e3]; exact hu⟩, e3⟩
          · rintro ⟨o, ho, rfl⟩
            exact ((hmos o).1 ho).2
        refine ⟨os, hos, fun o ho => ?_, fun o ho hok hm hvv => (hmos o).2 ⟨hstart o ho, (hcompl' o ho hok hm hvv).2⟩, ?_⟩
        · obtain ⟨c, -, -, o', -, e1, e2, hm, v, hv', hiv⟩ := hfound o ho
          unfold Offered.Matches Offered.Has at hm ⊢
          rw [e1, e2] at hm
          refine ⟨hm, v, hv', ?_⟩
          unfold Offered.InView at hiv ⊢
          rw [← e2]; exact hiv
        · intro now' hc' hr' hlater
          unfold scanDuring
          rw [hc']
          simp only
          rw [if_neg hcn, hF.rows]
          simp only [Bool.false_eq_true, if_false]
          rw [rowsLoopAt_single now' _ _ hsingle, hr', hrows]
          cases hrw : rows with
          | none =>
            rw [hrw, Option.getD_none, eq_comm, List.map_eq_nil_iff] at hids
            rw [hids]; rfl
          | some ids =>
            rw [hrw, Option.getD_some] at hids
            simp only
            by_cases hne : os = []
            · rw [if_pos hne, if_pos (by rw [hids, hne]; rfl)]
            · rw [if_neg hne, if_neg (by rw [hids, List.map_eq_nil_iff]; exact hne), hids, chosen_map]
              unfold readSamplesAt
              rw [if_pos hscope]
              obtain ⟨l, h1, h2⟩ := unmarshalAt_exact (now := now') (fault := E.frameFault) (kind := sc.scope) (W := picked sc os)
                (E.views sc) (sc.filters.length + 1 + (E.colOrder (Sh.groupCols cols)).length) (fun j hj v hv' => by
                  obtain ⟨j', hj', ej⟩ := hlater j (by omega)
                  rw [ej]
                  obtain ⟨recs', so', hJ⟩ := hat j'
                  have hH' := hJ.hist
                  rw [hn] at hH'
                  refine hH'.readView_framed hi (fun o ho => ?_) (hinc _ _ _ hJ) hF.frame (halign _ _ _ hJ v hv') _ _
                    ((picked_sublist sc os).trans hos) fun w hw => ?_
                  · obtain ⟨o', ho', -, e⟩ := hsub _ _ _ hJ o ho
                    exact ⟨o', ho', e⟩
                  · obtain ⟨c, hc, hcf, o', ho', -, e2, -⟩ := hfound w ((picked_sublist sc os).subset hw)
                    obtain ⟨c', hc', hcf', o'', ho'', -, e3⟩ := hR.framed hJ (ht.forward _ _ hj') hc hcf ho'
                    exact ⟨c', hc', hcf', o'', ho'', e3.trans e2⟩)
              rw [h1]
              simp only
              rw [h2]
              rfl
    obtain ⟨os, k1, k2, k3, k4⟩ := key
    have e1 := k4 now (by rw [hc, hcc]) rfl fun j hj => ⟨j, hj, rfl⟩
    refine ⟨os, k1, k2, k3, e1, sc.filters.length + 1, Nat.le_refl _, ?_⟩
    rw [← scanDuring_const, e1]
    refine (k4 (fun _ => now (sc.filters.length + 1)) ?_ rfl fun j _ => ⟨_, Nat.le_refl _, rfl⟩).symm
    unfold compileFiltersAt
    simp only [filterLoopAt_const]
    exact hcc
  · have hz : scanDuring D now E sc = .data (Dt.zero sc.scope) := by unfold scanDuring; rw [hc]; rfl
    refine ⟨[], List.nil_sublist _, by simp, fun o ho _ hm _ => ?_, by rw [hz]; rfl, j, hj, ?_⟩
    · obtain ⟨recs', so', hJ⟩ := hat j
      have hH' := hJ.hist
      rw [hn] at hH'
      obtain ⟨c, hc', hoc⟩ := List.mem_flatMap.1 (hbefore _ _ _ hJ o ho)
      obtain ⟨l', hl', he⟩ := hm.2 l hl
      obtain ⟨n, hn'⟩ := hH'.known hc' hoc hl'
      rw [he, hlook] at hn'; cases hn'
    · rw [hz, C26_unknown_matches_nothing D (now j) E hF sc l hl hlook]

section
variable (hD : D.Lawful) (hI : D.Injective) (hg : D.Good st) (ops : List (Op σ)) (fls : List Flush)
  (hv : Valid D (fresh st) (ops ++ fls.map .flush)) (hi : Increasing (samplesOf D st (ops ++ fls.map .flush)))
  (t : Nat → Moment σ) (ht : Course D (run D st ops) fls t)
  (E : Env) (hE : E.Fair) (hF : E.NoFaults) (sc : Scan)
  (hscope : sc.scope = Res.metrics ∨ sc.scope = Res.logs ∨ sc.scope = Res.traces) (k : Nat)
  (hk : ∀ l ∈ sc.asked, ∀ n, D.look (run D st (ops ++ fls.map .flush)).ctx.st l.encode = some n → n / shardWidth = k)
  (hopen : k ∈ (run D st ops).idx.opened ∨ samplesOf D st ops = [])
  (ha : ∀ v ∈ E.views sc, (∃ o ∈ samplesOf D st ops, o.ok = true ∧ o.sample.id = 0 ∧ o.InView v) ∨
    ∀ o ∈ samplesOf D st (ops ++ fls.map .flush), ¬ o.InView v)
include hD hI hg hv hi ht hE hF hscope hk hopen ha

/-- **C58**, partial (the provisos of C29): a scan made while samples are flushed returns the payloads of whole samples that match and
were handed to a flush by then or during the scan, each once; among them all matching samples whose flush had returned without an
error before the scan began. -/
theorem C58_scan_while_flushing_partial :
    ∃ os : List Offered, os.Sublist (samplesOf D st (ops ++ fls.map .flush)) ∧
      (∀ o ∈ os, o.Matches sc ∧ ∃ v ∈ E.views sc, o.InView v) ∧
      (∀ o ∈ samplesOf D st ops, o.ok = true → o.Matches sc → (∃ v ∈ E.views sc, o.InView v) → o ∈ os) ∧
      scanDuring D (fun i => (t i).store D (run D st ops) fls) E sc =
        if os = [] then .data (Dt.zero sc.scope) else merged E (payloads (picked sc os) sc.scope (E.views sc)) := by
  obtain ⟨os, a, b, c, d, -⟩ := scanDuring_spec hD hI hg ops fls hv hi t ht E hE hF sc hscope k hk hopen ha
  exact ⟨os, a, b, c, d⟩

/-- **C58**, partial (the same provisos): there is a moment during the scan at which a scan in one piece would have returned the same. -/
theorem C58_atomic_partial :
    ∃ i, scanDuring D (fun i => (t i).store D (run D st ops) fls) E sc = scan D ((t i).store D (run D st ops) fls) E sc := by
  obtain ⟨-, -, -, -, -, i, -, h⟩ := scanDuring_spec hD hI hg ops fls hv hi t ht E hE hF sc hscope k hk hopen ha
  exact ⟨i, h⟩

end

/-! ### A concrete course -/

/-- Sample 2, like sample 0. -/
def lateFlush : Flush := logFlush [(2, 9, [97])] 5

/-- The labels are looked up before the flush, the index is read when `c` transactions of the flush are committed, the data frame
after the flush. -/
def lateCourse (c : Nat) (i : Nat) : Moment (List Bytes) :=
  if i = 0 then ⟨0, .translating (run listDict [] fullOps).ctx.st⟩ else if i ≤ 2 then ⟨0, .committed c⟩ else ⟨1, .committed 0⟩

def rangeScan : Scan := { scope := Res.logs, filters := [.base Pfx.logsLevel [97]], time := { range := some (0, 10) } }

theorem late_samples : samplesOf listDict [] (fullOps ++ [lateFlush].map .flush) =
    [⟨0, { id := 0, data := logAt 5 [97] }, true⟩, ⟨Res.logs, { id := 1, data := logAt 7 [98] }, true⟩,
      ⟨Res.logs, { id := 2, data := logAt 9 [97] }, true⟩] := by
  have h1 : (saveSamples listDict (fresh []) (logFlush [(0, 5, [97]), (1, 7, [98])] 5)).2 = .ok := by decide +kernel
  have h2 : (saveSamples listDict (saveSamples listDict (fresh []) (logFlush [(0, 5, [97]), (1, 7, [98])] 5)).1 lateFlush).2 = .ok := by
    decide +kernel
  show tag ((saveSamples listDict (fresh []) (logFlush [(0, 5, [97]), (1, 7, [98])] 5)).2 == .ok) 0 _ ++
    (tag ((saveSamples listDict (saveSamples listDict (fresh []) (logFlush [(0, 5, [97]), (1, 7, [98])] 5)).1 lateFlush).2 == .ok) Res.logs _ ++
      []) = _
  rw [h1, h2]; rfl

/-- The hypotheses of C58 hold of it. -/
theorem late_hypotheses (c : Nat) :
    Valid listDict (fresh []) (fullOps ++ [lateFlush].map .flush) ∧
    Increasing (samplesOf listDict [] (fullOps ++ [lateFlush].map .flush)) ∧
    Course listDict (run listDict [] fullOps) [lateFlush] (lateCourse c) ∧
    (∀ l ∈ rangeScan.asked, ∀ n, listDict.look (run listDict [] (fullOps ++ [lateFlush].map .flush)).ctx.st l.encode = some n →
      n / shardWidth = 0) ∧
    0 ∈ (run listDict [] fullOps).idx.opened ∧
    ∀ v ∈ toyEnv.views rangeScan, ∃ o ∈ samplesOf listDict [] fullOps, o.ok = true ∧ o.sample.id = 0 ∧ o.InView v := by
  have hfull : samplesOf listDict [] fullOps =
      [⟨0, { id := 0, data := logAt 5 [97] }, true⟩, ⟨Res.logs, { id := 1, data := logAt 7 [98] }, true⟩] := by
    have h1 : (saveSamples listDict (fresh []) (logFlush [(0, 5, [97]), (1, 7, [98])] 5)).2 = .ok := by decide +kernel
    show tag ((saveSamples listDict (fresh []) (logFlush [(0, 5, [97]), (1, 7, [98])] 5)).2 == .ok) 0 _ ++ [] = _
    rw [h1]; rfl
  have hst : List.length (run listDict [] (fullOps ++ [lateFlush].map .flush)).ctx.st = 4 := by decide +kernel
  refine ⟨⟨logFlush_fair _ (by decide), by decide +kernel, logFlush_fair _ (by decide), by decide +kernel, trivial⟩, ?_, ⟨?_, ?_⟩, ?_,
    by decide +kernel, ?_⟩
  · unfold Increasing
    rw [late_samples, ← List.pairwise_map (f := fun o : Offered => o.sample.id) (R := (· < ·))]
    decide
  · intro i
    unfold lateCourse
    split
    · have hs : Sane listDict (run listDict [] fullOps) := sane_run listDict_lawful (s := fresh []) ⟨Nat.zero_le _, rfl⟩ fullOps_valid
      exact ⟨hs.good, Grows.refl _ _, fun x n h => (hs.save listDict_lawful (fl := lateFlush) (logFlush_fair _ (by decide))
        (by decide +kernel)).2.1 x n h⟩
    · split <;> simp [Moment.Possible]
  · intro i j hij
    unfold lateCourse Moment.Le
    repeat' split
    all_goals simp_all
    all_goals first | omega | exact Grows.refl _ _
  · intro l hl n h
    have := listDict_lt _ _ _ h
    rw [hst] at this
    rw [show shardWidth = 1048576 from rfl]
    omega
  · intro v hv
    have hv : v ∈ [hourView] := hv
    rw [List.mem_singleton] at hv
    rw [hfull, hv]
    exact ⟨_, List.mem_cons_self, rfl, rfl, by rw [inView_iff (by decide +kernel)]; decide +kernel⟩

/-- The scan that reads the index just before the flush writes it returns one record, the scan that reads it just after returns
both. -/
theorem late_results :
    scanDuring listDict (fun i => (lateCourse 4 i).store listDict (run listDict [] fullOps) [lateFlush]) toyEnv rangeScan =
      .data (some (.logs [{ scopes := [{ items := [{ ts := 5, severity := [97] }] }] }])) ∧
    scanDuring listDict (fun i => (lateCourse 5 i).store listDict (run listDict [] fullOps) [lateFlush]) toyEnv rangeScan =
      .data (some (.logs [{ scopes := [{ items := [{ ts := 5, severity := [97] }, { ts := 9, severity := [97] }] }] }])) := by
  constructor <;> decide +kernel

end Verif.St
