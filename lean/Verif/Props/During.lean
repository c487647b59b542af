import Verif.Lemmas.During
import Verif.Props.ScanExact
import Verif.Props.Concurrent
/-!
# C58 for every history and every course

What a scan returns whose transactions are interleaved with those of flushes; no provisos on shards and views.
-/
namespace Verif.St
open Tm Tf
open Bt (shardWidth)
variable {σ : Type} {D : Dict σ} {st : σ}

theorem filterLoopAt_known {now : Nat → Store σ} {E : Env} (hF : ∀ k, E.findFault k = false) {str : σ} {R : Nat}
    (hgr : ∀ i ≤ R, Grows D (now i).ctx.st str) (scope : Int) (fs : List Filter) (i : Nat) (hi : i + fs.length ≤ R) (r : Bm) :
    (∀ (p : Nat) f l, fs[p]? = some f → f.label scope = some l → ∃ n, D.look (now (i + p)).ctx.st l.encode = some n) ∧
      filterLoopAt D now E scope i fs r = filterLoop D str E scope fs r ∨
    ¬ (∀ (p : Nat) f l, fs[p]? = some f → f.label scope = some l → ∃ n, D.look (now (i + p)).ctx.st l.encode = some n) ∧
      filterLoopAt D now E scope i fs r = some [] := by
  induction fs generalizing i r with
  | nil => exact .inl ⟨fun p f l h => by simp at h, rfl⟩
  | cons f fs ih =>
    rw [List.length_cons] at hi
    have hsplit : (∀ (p : Nat) f' l, (f :: fs)[p]? = some f' → f'.label scope = some l → ∃ n, D.look (now (i + p)).ctx.st l.encode = some n) ↔
        (∀ l, f.label scope = some l → ∃ n, D.look (now i).ctx.st l.encode = some n) ∧
        ∀ (p : Nat) f l, fs[p]? = some f → f.label scope = some l → ∃ n, D.look (now (i + 1 + p)).ctx.st l.encode = some n := by
      constructor
      · intro h
        refine ⟨fun l hl => h 0 f l rfl hl, fun p f' l hf hl => ?_⟩
        have := h (p + 1) f' l (by simpa using hf) hl
        rwa [show i + (p + 1) = i + 1 + p by omega] at this
      · rintro ⟨h1, h2⟩ p f' l hf hl
        cases p with
        | zero =>
          rw [List.getElem?_cons_zero, Option.some.injEq] at hf
          subst hf; exact h1 l hl
        | succ p =>
          have := h2 p f' l (by simpa using hf) hl
          rwa [show i + 1 + p = i + (p + 1) by omega] at this
    rw [hsplit]
    unfold filterLoopAt filterLoop
    cases hl : f.label scope with
    | none =>
      simp only [reduceCtorEq, false_implies, implies_true, true_and]
      exact ih (i + 1) (by omega) r
    | some l =>
      simp only [find_noFault hF, Option.some.injEq, forall_eq']
      cases hk : D.look (now i).ctx.st l.encode with
      | none => exact .inr ⟨fun h => (nomatch h.1), rfl⟩
      | some n =>
        simp only [hgr i (by omega) _ _ hk, Option.some.injEq, exists_eq', true_and]
        exact ih (i + 1) (by omega) (r.add n)

theorem compileFiltersAt_known {now : Nat → Store σ} {E : Env} (hF : ∀ k, E.findFault k = false) {str : σ} {sc : Scan} {R : Nat}
    (hgr : ∀ i ≤ R, Grows D (now i).ctx.st str) (hR : sc.filters.length ≤ R) :
    KnownWhenAsked D now sc ∧ compileFiltersAt D now E sc = compileFilters D str E sc ∨
    ¬ KnownWhenAsked D now sc ∧ compileFiltersAt D now E sc = some [] := by
  unfold compileFiltersAt compileFilters KnownWhenAsked
  by_cases h : sc.filters = []
  · simp only [if_pos h, find_noFault hF]
    cases hk : D.look (now 0).ctx.st (Label.encode { resource := sc.scope }) with
    | none => exact .inr ⟨fun h' => (nomatch h'.1 h), rfl⟩
    | some n =>
      simp only [hgr 0 (by omega) _ _ hk]
      exact .inl ⟨⟨fun _ => ⟨n, rfl⟩, fun i f l hf => by rw [h] at hf; simp at hf⟩, trivial⟩
  · simp only [if_neg h]
    have := filterLoopAt_known (D := D) (now := now) (E := E) hF hgr sc.scope sc.filters 0 (by omega) []
    simp only [Nat.zero_add] at this
    rcases this with ⟨h1, h2⟩ | ⟨h1, h2⟩
    · exact .inl ⟨⟨fun h' => absurd h' h, h1⟩, h2⟩
    · exact .inr ⟨fun h' => h1 h'.2, h2⟩

theorem known_asked {now : Nat → Store σ} {sc : Scan} (h : KnownWhenAsked D now sc) {l : Label} (hl : l ∈ sc.asked) :
    ∃ i ≤ sc.filters.length, ∃ n, D.look (now i).ctx.st l.encode = some n := by
  unfold Scan.asked at hl
  split at hl
  · rename_i hf
    rw [List.mem_singleton] at hl
    subst hl
    exact ⟨0, Nat.zero_le _, h.1 hf⟩
  · obtain ⟨f, hf, hl⟩ := List.mem_filterMap.1 hl
    obtain ⟨i, hi⟩ := List.mem_iff_getElem?.1 hf
    have := (List.getElem?_eq_some_iff.1 hi).1
    exact ⟨i, by omega, h.2 i f l hi hl⟩

/-- **C58**, exactly: whatever moments of the flushes `fls` the transactions of a scan meet, there are accounts `L i` of what was committed
by then (a scan in one piece at that moment would return `answer` of it), which only grow, a transaction `sh k` for each shard asked for
and a first transaction `fr` on the data frame, such that the scan returns `answerDuring`. -/
theorem C58_exact (hD : D.Lawful) (hg : D.Good st) (ops : List (Op σ)) (fls : List Flush)
    (hv : Valid D (fresh st) (ops ++ fls.map .flush)) (hi : Increasing (samplesOf D st (ops ++ fls.map .flush)))
    (t : Nat → Moment σ) (ht : Course D (run D st ops) fls t) :
    ∃ L : Nat → List Landed,
      (∀ i, (L i).map (·.samples) = flushesOf D st (ops ++ ((t i).done fls).map .flush)) ∧
      (∀ i, ∀ f ∈ L i, f.Fine D ((t i).store D (run D st ops) fls).ctx.st) ∧
      (∀ i j, i ≤ j → Stays (L i) (L j)) ∧
      ∀ (E : Env) (_ : E.Fair) (_ : E.NoFaults) (sc : Scan),
        (∀ i, scan D ((t i).store D (run D st ops) fls) E sc =
          answer D ((t i).store D (run D st ops) fls).ctx.st ((t i).store D (run D st ops) fls).idx.opened (L i) E sc) ∧
        ∃ (sh : Nat → Nat) (fr : Nat),
          (KnownWhenAsked D (fun i => (t i).store D (run D st ops) fls) sc → ∀ k, AsksIn D ((t (sc.filters.length + 1)).store D (run D st ops) fls).ctx.st sc k → sc.filters.length + 1 ≤ sh k ∧ sh k < fr ∧
            ∀ k', AsksIn D ((t (sc.filters.length + 1)).store D (run D st ops) fls).ctx.st sc k' → sh k' = sh k → k' = k) ∧
          scanDuring D (fun i => (t i).store D (run D st ops) fls) E sc =
            answerDuring D (fun i => (t i).store D (run D st ops) fls) L (samplesOf D st (ops ++ fls.map .flush)) sh fr E sc := by
  classical
  obtain ⟨v1, v2⟩ := valid_append.1 hv
  have v2 : Valid D (run D st ops) (fls.map .flush) := v2
  have hs : Sane D (run D st ops) := sane_run hD ⟨hg, rfl⟩ v1
  choose recs so hat using fun i => moment_hist hD hg hv (ht.possible i)
  have hgr : ∀ i j, i ≤ j → Grows D ((t i).store D (run D st ops) fls).ctx.st ((t j).store D (run D st ops) fls).ctx.st :=
    fun i j h => Moment.grows hD hs v2 (ht.possible i) (ht.possible j) (ht.forward i j h)
  have hstrip : ∀ i, ∃ rest, (samplesOf D st (ops ++ fls.map .flush)).map (fun o => (o.res, o.sample)) =
        ((recs i).flatMap Rec.offered).map (fun o => (o.res, o.sample)) ++ rest := by
    intro i
    rw [(hat i).samples]
    exact ((t i).starts fls).offered D (fresh st) 0 ops
  have hsub : ∀ i, ∀ o ∈ (recs i).flatMap Rec.offered, ∃ o' ∈ samplesOf D st (ops ++ fls.map .flush), o'.sample = o.sample := by
    intro i o ho
    obtain ⟨rest, e⟩ := hstrip i
    have : (o.res, o.sample) ∈ (samplesOf D st (ops ++ fls.map .flush)).map (fun o => (o.res, o.sample)) := by
      rw [e]; exact List.mem_append_left _ (List.mem_map.2 ⟨o, ho, rfl⟩)
    obtain ⟨o', ho', e'⟩ := List.mem_map.1 this
    exact ⟨o', ho', congrArg Prod.snd e'⟩
  have hinc : ∀ i, Increasing ((recs i).flatMap Rec.offered) := by
    intro i
    obtain ⟨rest, e⟩ := hstrip i
    have h1 : ((samplesOf D st (ops ++ fls.map .flush)).map (fun o => (o.res, o.sample))).Pairwise fun a b => a.2.id < b.2.id := by
      rw [List.pairwise_map]; exact hi
    rw [e, List.pairwise_append, List.pairwise_map] at h1
    exact h1.1
  have hstay : ∀ i j, i ≤ j → Stays ((recs i).map Rec.landed) ((recs j).map Rec.landed) :=
    fun i j h => (hat i).stays (hat j) (ht.forward i j h) (hgr i j h)
  refine ⟨fun i => (recs i).map Rec.landed, fun i => ?_, fun i f hf => ?_, hstay, fun E hE hF sc => ⟨fun i => (hat i).hist.scan_answer (hinc i) hE hF sc, ?_⟩⟩
  · have h := hat i
    rw [List.eq_iff_flatten_eq]
    refine ⟨?_, ?_⟩
    · show _ = (flushes D (Store.start st (fun _ => none) []) 0 _).flatten
      rw [flushes_flatten]
      rw [show offered D (Store.start st (fun _ => none) []) 0 (ops ++ ((t i).done fls).map .flush) = _ from h.samples.symm, List.map_map, List.flatMap_def]
      rfl
    · show _ = (flushes D (Store.start st (fun _ => none) []) 0 _).map List.length
      rw [flushes_length, ← h.plain, List.map_map, List.map_map, List.map_map]
      apply List.map_congr_left
      intro c _
      exact tag_length _ _ _
  · obtain ⟨c, hc, rfl⟩ := List.mem_map.1 hf
    exact ((hat i).hist.oks c hc).fine
  -- the scan
  have hhist : ∀ i, Hist D ((t i).store D (run D st ops) fls) [] [] (recs i) (so i) := fun i => (hat i).hist
  generalize hall : samplesOf D st (ops ++ fls.map .flush) = all at hi hsub
  generalize hnow : (fun i => (t i).store D (run D st ops) fls) = now
  have hn : ∀ i, (t i).store D (run D st ops) fls = now i := fun i => by rw [← hnow]
  simp only [hn] at hgr hhist ⊢
  generalize hRd : sc.filters.length + 1 = R
  obtain ⟨cols, hcc, -, h3⟩ := compileFilters_spec (D := D) (st := (now R).ctx.st) hF.find sc
  have hmok : (E.colOrder (Sh.groupCols cols)).Ok := by
    unfold AMap.Ok
    exact ((hE.cols (Sh.groupCols cols)).map Prod.fst).nodup_iff.2 (Sh.groupCols_ok cols)
  have hmem : ∀ e, e ∈ E.colOrder (Sh.groupCols cols) ↔ (∃ c ∈ cols, c / shardWidth = e.1) ∧ e.2 = cols.filter fun c => decide (c / shardWidth = e.1) :=
    fun e => by rw [(hE.cols _).mem_iff, Sh.mem_groupCols]
  generalize hm : E.colOrder (Sh.groupCols cols) = m at hmok hmem
  rcases compileFiltersAt_known (D := D) (now := now) (E := E) (str := (now R).ctx.st) (sc := sc) (R := R) hF.find
    (fun i h => hgr i R h) (by omega) with ⟨hK, hc⟩ | ⟨hK, hc⟩
  · -- all labels known
    rw [hcc] at hc
    have hknown : ∀ l ∈ sc.asked, ∃ n, D.look (now R).ctx.st l.encode = some n := fun l hl => by
      obtain ⟨i, hiR, n, hn⟩ := known_asked hK hl
      exact ⟨n, hgr i R (by omega) _ _ hn⟩
    have h3' : ∀ j, R ≤ j → ∀ n, n ∈ cols ↔ ∃ l ∈ sc.asked, D.look (now j).ctx.st l.encode = some n := by
      intro j hj n
      rw [h3 n, and_iff_right hknown]
      refine exists_congr fun l => and_congr_right fun hl => ?_
      obtain ⟨n', hn'⟩ := hknown l hl
      rw [hn', hgr R j hj _ _ hn']
    have hasks : ∀ k, AsksIn D (now R).ctx.st sc k ↔ ∃ n ∈ cols, n / shardWidth = k := by
      intro k
      unfold AsksIn
      constructor
      · rintro ⟨l, hl, n, hn, hk⟩; exact ⟨n, (h3' R (Nat.le_refl _) n).2 ⟨l, hl, hn⟩, hk⟩
      · rintro ⟨n, hn, hk⟩
        obtain ⟨l, hl, hln⟩ := (h3' R (Nat.le_refl _) n).1 hn
        exact ⟨l, hl, n, hln, hk⟩
    obtain ⟨sh, hsh⟩ := order_exists m hmok R
    have hent : ∀ k, AsksIn D (now R).ctx.st sc k → ((k, cols.filter fun c => decide (c / shardWidth = k)), sh k) ∈ m.zipIdx R := by
      intro k hk
      have hme := (hmem (k, cols.filter fun c => decide (c / shardWidth = k))).2 ⟨(hasks k).1 hk, rfl⟩
      obtain ⟨p, hp⟩ := List.mem_iff_getElem?.1 hme
      have hz : ((k, cols.filter fun c => decide (c / shardWidth = k)), R + p) ∈ m.zipIdx R := List.mk_mem_zipIdx_iff_le_and_getElem?_sub.2
        ⟨by omega, by rw [show R + p - R = p by omega]; exact hp⟩
      have := hsh _ hz
      simp only at this
      rw [this]; exact hz
    have hent' : ∀ e ∈ m.zipIdx R, AsksIn D (now R).ctx.st sc e.1.1 ∧ e.1.2 = cols.filter (fun c => decide (c / shardWidth = e.1.1)) ∧ e.2 = sh e.1.1 ∧ R ≤ e.2 ∧ e.2 < R + m.length := by
      intro e he
      obtain ⟨h1, h2⟩ := (hmem e.1).1 (List.fst_mem_of_mem_zipIdx he)
      have hb := List.mem_zipIdx he
      exact ⟨(hasks _).2 h1, h2, (hsh e he).symm, hb.1, hb.2.1⟩
    refine ⟨sh, R + m.length, fun _ k hk => ?_, ?_⟩
    · obtain ⟨-, -, -, a, b⟩ := hent' _ (hent k hk)
      refine ⟨a, b, fun k' hk' e => ?_⟩
      have e1 := hent k hk
      have e2 := hent k' hk'
      rw [e] at e2
      have g1 := (List.mk_mem_zipIdx_iff_le_and_getElem?_sub.1 e1).2
      have g2 := (List.mk_mem_zipIdx_iff_le_and_getElem?_sub.1 e2).2
      rw [g1, Option.some.injEq, Prod.mk.injEq] at g2
      exact g2.1.symm
    -- what is found
    have hshR : ∀ k, AsksIn D (now R).ctx.st sc k → R ≤ sh k := fun k hk => (hent' _ (hent k hk)).2.2.2.1
    have hhit : ∀ k, AsksIn D (now R).ctx.st sc k → ∀ u, u ∈ Sh.shardRows (now (sh k)).idx.disk k (E.views sc) (cols.filter fun c => decide (c / shardWidth = k)) ↔
        ∃ o ∈ all, o.sample.id = u ∧ HitAt D now (fun i => (recs i).map Rec.landed) (E.views sc) sc sh k o.sample := by
      intro k hk u
      rw [(hhist (sh k)).hit (hinc (sh k)) (h3' _ (hshR k hk)) ((hasks k).1 hk) u]
      constructor
      · rintro ⟨o, hid, ho⟩
        have ho1 := ho.1
        rw [allSamples_landed] at ho1
        obtain ⟨o', ho', e⟩ := hsub _ o ho1
        exact ⟨o', ho', by rw [e]; exact hid, o, e.symm, ho⟩
      · rintro ⟨o, -, hid, o', e, ho'⟩
        exact ⟨o', by rw [e]; exact hid, ho'⟩
    have hne : ∀ k, AsksIn D (now R).ctx.st sc k → (Sh.shardRows (now (sh k)).idx.disk k (E.views sc) (cols.filter fun c => decide (c / shardWidth = k)) ≠ [] ↔
        ∃ x, HitAt D now (fun i => (recs i).map Rec.landed) (E.views sc) sc sh k x) := by
      intro k hk
      constructor
      · intro h
        obtain ⟨u, hu⟩ := List.exists_mem_of_ne_nil _ h
        obtain ⟨o, -, -, ho⟩ := (hhit k hk u).1 hu
        exact ⟨_, ho⟩
      · rintro ⟨x, o, rfl, ho⟩ h
        have ho1 := ho.1
        rw [allSamples_landed] at ho1
        obtain ⟨o', ho', e⟩ := hsub _ o ho1
        have := (hhit k hk o'.sample.id).2 ⟨o', ho', rfl, o, e.symm, ho⟩
        rw [h] at this; simp at this
    have hfound : ∀ u, u ∈ (rowsLoopAt now (E.views sc) R m none).getD [] ↔
        ∃ o ∈ all, o.sample.id = u ∧ FindsDuring D now (fun i => (recs i).map Rec.landed) (E.views sc) sc sh o.sample := by
      intro u
      rw [mem_rowsLoopAt]
      simp only [reduceCtorEq, false_implies, implies_true, Option.isSome_none, Bool.false_eq_true, false_or, true_and]
      constructor
      · rintro ⟨g1, ⟨e0, he0, hne0⟩, g3⟩
        obtain ⟨a1, a2, a3, -⟩ := hent' e0 he0
        have hu0 := g3 e0 he0 hne0
        rw [a2, a3] at hne0 hu0
        obtain ⟨o, ho, hid, hho⟩ := (hhit _ a1 u).1 hu0
        refine ⟨o, ho, hid, hK, fun l hl n hn' => ?_, ⟨_, by rw [hRd]; exact a1, _, hho⟩, fun k hk hx => ?_⟩
        · rw [hRd] at hn'
          exact g1 _ (hent _ ⟨l, hl, n, hn', rfl⟩)
        · rw [hRd] at hk
          obtain ⟨o2, ho2, hid2, h2⟩ := (hhit k hk u).1 (g3 _ (hent k hk) ((hne k hk).2 hx))
          have : o2 = o := unique hi ho2 ho (hid2.trans hid.symm)
          subst this
          exact h2
      · rintro ⟨o, ho, rfl, -, g1, ⟨k0, hk0, x0, hx0⟩, g3⟩
        rw [hRd] at g1 hk0 g3
        refine ⟨fun e he => ?_, ⟨_, hent k0 hk0, (hne k0 hk0).2 ⟨x0, hx0⟩⟩, fun e he hne' => ?_⟩
        · obtain ⟨⟨l, hl, n, hn', hk⟩, -, a3, -⟩ := hent' e he
          rw [a3, ← hk]
          exact g1 l hl n hn'
        · obtain ⟨a1, a2, a3, -⟩ := hent' e he
          rw [a2, a3] at hne' ⊢
          exact (hhit _ a1 _).2 ⟨o, ho, rfl, g3 _ a1 ((hne _ a1).1 hne')⟩
    have hids : (rowsLoopAt now (E.views sc) R m none).getD [] = (foundDuring D now (fun i => (recs i).map Rec.landed) (E.views sc) sc sh all).map (·.sample.id) := by
      unfold foundDuring
      refine Bm.ext (rowsLoopAt_ok _ _ _ _ _ Bm.nil_ok) (increasing_filter hi _) fun u => ?_
      rw [hfound u, List.mem_map]
      constructor
      · rintro ⟨o, ho, hid, hf⟩
        exact ⟨o, List.mem_filter.2 ⟨ho, decide_eq_true hf⟩, hid⟩
      · rintro ⟨o, ho, hid⟩
        obtain ⟨h1, h2⟩ := List.mem_filter.1 ho
        exact ⟨o, h1, hid, of_decide_eq_true h2⟩
    have hfd : ∀ o ∈ foundDuring D now (fun i => (recs i).map Rec.landed) (E.views sc) sc sh all,
        o ∈ all ∧ ∀ j, R + m.length ≤ j → ∃ o' ∈ (recs j).flatMap Rec.offered, o'.sample = o.sample := by
      intro o ho
      obtain ⟨h1, h2⟩ := List.mem_filter.1 ho
      obtain ⟨-, -, ⟨k, hk, hx⟩, g3⟩ := of_decide_eq_true h2
      refine ⟨h1, fun j hj => ?_⟩
      obtain ⟨o', e, ho'⟩ := g3 k hk hx
      rw [hRd] at hk
      obtain ⟨f, hf, hof⟩ := List.mem_flatMap.1 ho'.1
      obtain ⟨p, hp⟩ := List.mem_iff_getElem?.1 hf
      have hlt := (hent' _ (hent k hk)).2.2.2.2
      obtain ⟨g, hgp, hgs, -⟩ := hstay (sh k) j (by simp only at hlt; omega) p f hp
      have : (o'.res, o'.sample) ∈ g.samples.map fun o => (o.res, o.sample) := by
        rw [hgs]; exact List.mem_map.2 ⟨o', hof, rfl⟩
      obtain ⟨o'', ho'', e''⟩ := List.mem_map.1 this
      refine ⟨o'', ?_, by rw [← e]; exact congrArg Prod.snd e''⟩
      rw [← allSamples_landed]
      exact List.mem_flatMap.2 ⟨g, List.mem_of_getElem? hgp, ho''⟩
    have hsubl : (foundDuring D now (fun i => (recs i).map Rec.landed) (E.views sc) sc sh all).Sublist all := List.filter_sublist
    unfold scanDuring answerDuring
    rw [hc]
    simp only
    rw [hRd, hm]
    generalize foundDuring D now (fun i => (recs i).map Rec.landed) (E.views sc) sc sh all = M at hids hfd hsubl ⊢
    by_cases hcn : cols = []
    · have hmn : m = [] := by
        rw [List.eq_nil_iff_forall_not_mem]
        intro e he
        obtain ⟨⟨c, hc, -⟩, -⟩ := (hmem e).1 he
        rw [hcn] at hc; simp at hc
      rw [hmn] at hids
      rw [if_pos hcn, if_pos (List.map_eq_nil_iff.1 hids.symm)]
    · rw [if_neg hcn, hF.rows]
      simp only [Bool.false_eq_true, if_false]
      cases hr : rowsLoopAt now (E.views sc) R m none with
      | none =>
        rw [hr, Option.getD_none, eq_comm, List.map_eq_nil_iff] at hids
        rw [if_pos hids]
      | some ids =>
        rw [hr, Option.getD_some] at hids
        simp only
        by_cases hMn : M = []
        · rw [if_pos hMn, if_pos (by rw [hids, hMn]; rfl)]
        · rw [if_neg hMn, if_neg (by rw [hids, List.map_eq_nil_iff]; exact hMn), hids, chosen_map]
          unfold readSamplesAt
          by_cases hsc : sc.scope = Res.metrics ∨ sc.scope = Res.logs ∨ sc.scope = Res.traces
          · rw [if_pos hsc, if_pos hsc]
            rcases unmarshalAt_scan (now := now) (L := fun i => (recs i).map Rec.landed) (fault := E.frameFault) (kind := sc.scope) (W := picked sc M)
              (E.views sc) (R + m.length) (fun j hj v => by
                refine (hhist j).readView_at (hinc j) hF.frame v sc.scope
                  (W0 := ((recs j).flatMap Rec.offered).filter fun o => decide (∃ w ∈ picked sc M, w.sample = o.sample)) List.filter_sublist ?_
                refine same_samples (List.Pairwise.sublist ((picked_sublist sc M).trans hsubl) hi) (List.Pairwise.filter _ (hinc j)) fun x => ?_
                constructor
                · rintro ⟨w, hw, rfl⟩
                  obtain ⟨o', ho', e⟩ := (hfd w ((picked_sublist sc M).subset hw)).2 j hj
                  exact ⟨o', List.mem_filter.2 ⟨ho', decide_eq_true ⟨w, hw, e.symm⟩⟩, e⟩
                · rintro ⟨o, ho, rfl⟩
                  exact of_decide_eq_true (List.mem_filter.1 ho).2) with ⟨h1, l, h2, h3⟩ | ⟨h1, h2⟩
            · rw [if_pos h1, h2]
              simp only
              rw [h3]
              rfl
            · rw [if_neg h1, h2]
          · rw [if_neg hsc, if_neg hsc]
  · -- some label is unknown when it is looked up
    refine ⟨fun _ => 0, 0, fun h => absurd h hK, ?_⟩
    have hnone : foundDuring D now (fun i => (recs i).map Rec.landed) (E.views sc) sc (fun _ => 0) all = [] := by
      unfold foundDuring
      rw [List.filter_eq_nil_iff]
      intro o _ h
      exact hK (of_decide_eq_true h).1
    unfold scanDuring answerDuring
    rw [hc]
    simp only
    rw [if_pos trivial, if_pos hnone]

/-! ### What is always found -/

theorem flushes_append (D : Dict σ) (s : Store σ) (r : Int) (ops ops' : List (Op σ)) :
    ∃ rest, flushes D s r (ops ++ ops') = flushes D s r ops ++ rest := by
  induction ops generalizing s r with
  | nil => exact ⟨_, rfl⟩
  | cons op ops ih =>
    cases op with
    | flush fl =>
      obtain ⟨rest, h⟩ := ih (saveSamples D s fl).1 (fl.samples.foldl (fun r x => x.data.signal.getD r) r)
      exact ⟨rest, by rw [List.cons_append, flushes, flushes, h, List.cons_append]⟩
    | restart st =>
      obtain ⟨rest, h⟩ := ih (step D s (.restart st)) 0
      exact ⟨rest, by rw [List.cons_append, flushes, flushes, h]⟩

/-- **C58.** Among the samples found are all that match, lie in the range and were flushed without an error before the scan began, if
the shards of the labels asked for were open by then. `L` is any account with the properties given in `C58_exact`. -/
theorem C58_complete (hD : D.Lawful) (hg : D.Good st) (ops : List (Op σ)) (fls : List Flush)
    (hv : Valid D (fresh st) (ops ++ fls.map .flush)) (t : Nat → Moment σ) (ht : Course D (run D st ops) fls t) (L : Nat → List Landed)
    (hL : ∀ i, (L i).map (·.samples) = flushesOf D st (ops ++ ((t i).done fls).map .flush))
    (hfine : ∀ i, ∀ f ∈ L i, f.Fine D ((t i).store D (run D st ops) fls).ctx.st) (views : List Bytes) (sc : Scan) (sh : Nat → Nat)
    (hopen : ∀ l ∈ sc.asked, ∀ n, D.look (run D st (ops ++ fls.map .flush)).ctx.st l.encode = some n →
      n / shardWidth ∈ (run D st ops).idx.opened)
    (o : Offered) (ho : o ∈ samplesOf D st ops) (hok : o.ok = true) (hm : o.Matches sc) (hvw : ∃ v ∈ views, o.InView v) :
    FindsDuring D (fun i => (t i).store D (run D st ops) fls) L views sc sh o.sample := by
  obtain ⟨v1, v2⟩ := valid_append.1 hv
  have v2 : Valid D (run D st ops) (fls.map .flush) := v2
  have hs : Sane D (run D st ops) := sane_run hD ⟨hg, rfl⟩ v1
  have hend : run D st (ops ++ fls.map .flush) = flushed D (run D st ops) fls := by
    rw [flushed_eq]; unfold run; rw [List.foldl_append]
  rw [hend] at hopen
  have hin : ∀ i, ∃ f ∈ L i, o ∈ f.samples := by
    intro i
    have h1 : o ∈ (flushesOf D st ops).flatten := by
      show o ∈ (flushes D (Store.start st (fun _ => none) []) 0 ops).flatten
      rw [flushes_flatten]; exact ho
    obtain ⟨rest, e⟩ := flushes_append D (fresh st) 0 ops (((t i).done fls).map .flush)
    obtain ⟨x, hx, hox⟩ := List.mem_flatten.1 h1
    have : x ∈ (L i).map (·.samples) := by
      rw [hL i]
      show x ∈ flushes D (fresh st) 0 _
      rw [e]; exact List.mem_append_left _ hx
    obtain ⟨f, hf, rfl⟩ := List.mem_map.1 this
    exact ⟨f, hf, hox⟩
  have hge : ∀ i, Grows D ((t i).store D (run D st ops) fls).ctx.st (flushed D (run D st ops) fls).ctx.st :=
    fun i => Moment.grows_end hD hs v2 (ht.possible i)
  have hknown : ∀ i, ∀ l ∈ sc.asked, ∃ n, D.look ((t i).store D (run D st ops) fls).ctx.st l.encode = some n := by
    intro i l hl
    obtain ⟨l', h1, h2⟩ := hm.2 l hl
    obtain ⟨f, hf, hof⟩ := hin i
    obtain ⟨n, hn⟩ := (hfine i f hf).known o hof l' h1
    exact ⟨n, by rw [← h2]; exact hn⟩
  have hsame : ∀ i j, ∀ l ∈ sc.asked, ∀ n, D.look ((t i).store D (run D st ops) fls).ctx.st l.encode = some n →
      D.look ((t j).store D (run D st ops) fls).ctx.st l.encode = some n := by
    intro i j l hl n hn
    obtain ⟨n', hn'⟩ := hknown j l hl
    have e1 := hge i _ _ hn
    have e2 := hge j _ _ hn'
    rw [e1, Option.some.injEq] at e2
    rw [e2]; exact hn'
  have hnum : ∀ i, ∀ l ∈ sc.asked, ∀ n, D.look ((t i).store D (run D st ops) fls).ctx.st l.encode = some n →
      o.Numbered D ((t i).store D (run D st ops) fls).ctx.st n := by
    intro i l hl n hn
    obtain ⟨l', h1, h2⟩ := hm.2 l hl
    exact ⟨l', h1, by rw [h2]; exact hn⟩
  have hhit : ∀ k, AsksIn D ((t (sc.filters.length + 1)).store D (run D st ops) fls).ctx.st sc k →
      HitAt D (fun i => (t i).store D (run D st ops) fls) L views sc sh k o.sample := by
    rintro k ⟨l, hl, n, hn, hk⟩
    obtain ⟨f, hf, hof⟩ := hin (sh k)
    refine ⟨o, rfl, List.mem_flatMap.2 ⟨f, hf, hof⟩, hvw, ⟨f, hf, hof, ?_⟩, fun l hl n hn _ => hnum _ l hl n hn⟩
    have := (hfine (sh k) f hf).shards o hof hok n (hnum _ l hl n (hsame _ _ l hl n hn))
    rw [hk] at this; exact this
  refine ⟨⟨fun hf => ?_, fun i f l hf hl => ?_⟩, fun l hl n hn => ?_, ?_, fun k hk _ => hhit k hk⟩
  · exact hknown 0 _ (by unfold Scan.asked; rw [if_pos hf]; exact List.mem_singleton_self _)
  · refine hknown i l ?_
    unfold Scan.asked
    rw [if_neg (fun e => by rw [e] at hf; simp at hf)]
    exact List.mem_filterMap.2 ⟨f, List.mem_of_getElem? hf, hl⟩
  · exact (Moment.between hD hs v2 (ht.possible _)).2.2.1 _ (hopen l hl n (hge _ _ _ hn))
  · obtain ⟨l, hl⟩ := List.exists_mem_of_ne_nil _ hm.1
    obtain ⟨n, hn⟩ := hknown (sc.filters.length + 1) l hl
    exact ⟨_, ⟨l, hl, n, hn, rfl⟩, o.sample, hhit _ ⟨l, hl, n, hn, rfl⟩⟩

/-! ### A scan that no moment explains -/

/-- A dictionary whose numbers lie in a shard each. -/
def spreadDict : Dict (List Bytes) where
  tr := fun st k =>
    if k ∈ st then some (st, st.idxOf k * 1048576)
    else if st.length < 2 ^ 44 then some (st ++ [k], st.length * 1048576) else none
  look := fun st k => if k ∈ st then some (st.idxOf k * 1048576) else none
  keyOf := fun st n => st[n / 1048576]?
  Good := fun st => st.length ≤ 2 ^ 44

theorem spreadDict_lawful : spreadDict.Lawful := by
  have key : ∀ {st : List Bytes} {k st' n}, spreadDict.tr st k = some (st', n) →
      (st'.length ≤ 2 ^ 44 ∨ st' = st) ∧ spreadDict.look st' k = some n ∧
      ∀ a, a ≠ k → spreadDict.look st' a = spreadDict.look st a := by
    intro st k st' n h
    simp only [spreadDict] at h ⊢
    split at h
    · cases h; simp_all
    · rename_i hk
      split at h
      · cases h
        refine ⟨.inl (by simp; omega), by simp [List.idxOf_append, hk], fun a ha => ?_⟩
        by_cases hm : a ∈ st
        · simp [hm, List.idxOf_append]
        · simp [hm, ha]
      · cases h
  refine ⟨fun {st k st' n} hg h => ?_, fun {st k st' n} _ h => (key h).2.1, fun {st k st' n a m} _ h hl => ?_, fun {st k st' n a m} _ h hl => ?_⟩
  · rcases (key h).1 with h | rfl
    · exact h
    · exact hg
  · by_cases ha : a = k
    · subst ha
      simp only [spreadDict] at h hl ⊢
      by_cases hm : a ∈ st
      · simp [hm] at h hl; obtain ⟨rfl, rfl⟩ := h; simp [hm, hl]
      · simp [hm] at hl
    · rw [(key h).2.2 a ha]; exact hl
  · by_cases ha : a = k
    · exact .inl ha
    · exact .inr ((key h).2.2 a ha ▸ hl)

theorem spreadDict_injective : spreadDict.Injective := by
  have key : ∀ {st : List Bytes} {a n}, spreadDict.look st a = some n → a ∈ st ∧ n = st.idxOf a * 1048576 := by
    intro st a n h
    simp only [spreadDict] at h
    split at h
    · rename_i hm; cases h; exact ⟨hm, rfl⟩
    · cases h
  have back : ∀ {st : List Bytes} {a n}, spreadDict.look st a = some n → spreadDict.keyOf st n = some a := by
    intro st a n h
    obtain ⟨hm, rfl⟩ := key h
    show st[st.idxOf a * 1048576 / 1048576]? = some a
    rw [Nat.mul_div_cancel _ (by decide)]
    exact List.getElem?_idxOf hm
  refine ⟨fun {st a b n} _ ha hb => ?_, fun {st a n} _ h => back h, fun {st a n} hg h => ?_⟩
  · have e := back ha
    rw [back hb, Option.some.injEq] at e
    exact e.symm
  · obtain ⟨hm, rfl⟩ := key h
    have h1 := List.idxOf_lt_length_iff.2 hm
    have h2 : st.length ≤ 2 ^ 44 := hg
    omega

/-- Labels 97 and 98 are known, but in another hour. -/
def tornOps : List (Op (List Bytes)) :=
  [.flush (logFlush [(0, 5, [99]), (1, 7200000000000, [97]), (2, 7200000000000, [98])] 20)]

/-- In the first hour, one sample with each label. -/
def tornFlush : Flush := logFlush [(3, 7, [97]), (4, 9, [98])] 7

/-- The shard of the first label is read before the flush, all else after. -/
def tornCourse (i : Nat) : Moment (List Bytes) := if i ≤ 3 then ⟨0, .committed 0⟩ else ⟨1, .committed 0⟩

/-- Both labels are asked for, in the first hour. No sample has both. -/
def tornScan : Scan := { scope := Res.logs, filters := [.base Pfx.logsLevel [97], .base Pfx.logsLevel [98]], time := { range := some (0, 10) } }

/-- A scan looks at the dictionary only to look up labels. -/
theorem scan_look {a b : σ} (h : ∀ x, D.look a x = D.look b x) (s : Store σ) (E : Env) (sc : Scan) :
    scan D { s with ctx := { s.ctx with st := a } } E sc = scan D { s with ctx := { s.ctx with st := b } } E sc := by
  have hf : ∀ l, find D a E l = find D b E l := fun l => by unfold find; rw [h]
  have hl : ∀ scope fs r, filterLoop D a E scope fs r = filterLoop D b E scope fs r := by
    intro scope fs
    induction fs with
    | nil => intro r; rfl
    | cons f fs ih =>
      intro r
      unfold filterLoop
      cases f.label scope with
      | none => exact ih r
      | some l =>
        simp only [hf]
        cases find D b E l with
        | col n => exact ih _
        | notFound => rfl
        | fault => rfl
  have hc : compileFilters D a E sc = compileFilters D b E sc := by
    unfold compileFilters
    rw [hf, hl]
  unfold scan
  simp only [hc]
  rfl

theorem torn_result : scanDuring spreadDict (fun i => (tornCourse i).store spreadDict (run spreadDict [] tornOps) [tornFlush]) toyEnv tornScan =
    .data (some (.logs [{ scopes := [{ items := [{ ts := 9, severity := [98] }] }] }])) := by decide +kernel

/-- What it would have returned in one piece: nothing before the flush, and during it the sample with the one label or that with the
other, or nothing. -/
theorem torn_pieces :
    scan spreadDict (run spreadDict [] tornOps) toyEnv tornScan ≠ .data (some (.logs [{ scopes := [{ items := [{ ts := 9, severity := [98] }] }] }])) ∧
    (∀ c ≤ 7, scan spreadDict (saveSamples spreadDict (run spreadDict [] tornOps) { tornFlush with commits := c }).1 toyEnv tornScan ≠
      .data (some (.logs [{ scopes := [{ items := [{ ts := 9, severity := [98] }] }] }]))) := by
  constructor <;> decide +kernel

theorem torn_samples : samplesOf spreadDict [] (tornOps ++ [tornFlush].map .flush) =
    [⟨0, { id := 0, data := logAt 5 [99] }, true⟩, ⟨Res.logs, { id := 1, data := logAt 7200000000000 [97] }, true⟩,
      ⟨Res.logs, { id := 2, data := logAt 7200000000000 [98] }, true⟩, ⟨Res.logs, { id := 3, data := logAt 7 [97] }, true⟩,
      ⟨Res.logs, { id := 4, data := logAt 9 [98] }, true⟩] := by
  have h1 : (saveSamples spreadDict (fresh []) (logFlush [(0, 5, [99]), (1, 7200000000000, [97]), (2, 7200000000000, [98])] 20)).2 = .ok := by
    decide +kernel
  have h2 : (saveSamples spreadDict (saveSamples spreadDict (fresh [])
      (logFlush [(0, 5, [99]), (1, 7200000000000, [97]), (2, 7200000000000, [98])] 20)).1 tornFlush).2 = .ok := by
    decide +kernel
  show tag ((saveSamples spreadDict (fresh []) (logFlush [(0, 5, [99]), (1, 7200000000000, [97]), (2, 7200000000000, [98])] 20)).2 == .ok) 0 _ ++
    (tag ((saveSamples spreadDict (saveSamples spreadDict (fresh [])
      (logFlush [(0, 5, [99]), (1, 7200000000000, [97]), (2, 7200000000000, [98])] 20)).1 tornFlush).2 == .ok) Res.logs _ ++ []) = _
  rw [h1, h2]; rfl

/-- **C58, refuted as intended**: with labels in more than one shard, a scan made while a flush is under way can return what a scan in one
piece returns at no moment whatever: here the one sample that was flushed with the second of the two labels asked for. -/
theorem C58_refuted :
    spreadDict.Lawful ∧ spreadDict.Injective ∧ Valid spreadDict (fresh []) (tornOps ++ [tornFlush].map .flush) ∧
    Increasing (samplesOf spreadDict [] (tornOps ++ [tornFlush].map .flush)) ∧
    Course spreadDict (run spreadDict [] tornOps) [tornFlush] tornCourse ∧
    (∀ o ∈ samplesOf spreadDict [] (tornOps ++ [tornFlush].map .flush), o.ok = true) ∧
    ∀ m : Moment (List Bytes), m.Possible spreadDict (run spreadDict [] tornOps) [tornFlush] →
      scanDuring spreadDict (fun i => (tornCourse i).store spreadDict (run spreadDict [] tornOps) [tornFlush]) toyEnv tornScan ≠
        scan spreadDict (m.store spreadDict (run spreadDict [] tornOps) [tornFlush]) toyEnv tornScan := by
  refine ⟨spreadDict_lawful, spreadDict_injective,
    ⟨logFlush_fair _ (by decide), by decide +kernel, logFlush_fair _ (by decide), by decide +kernel, trivial⟩, ?_, ⟨?_, ?_⟩, ?_, ?_⟩
  · unfold Increasing
    rw [torn_samples, ← List.pairwise_map (f := fun o : Offered => o.sample.id) (R := (· < ·))]
    decide
  · intro i
    unfold tornCourse
    split <;> simp [Moment.Possible]
  · intro i j hij
    unfold tornCourse Moment.Le
    repeat' split
    all_goals simp_all
    all_goals omega
  · rw [torn_samples]
    intro o ho
    simp only [List.mem_cons, List.not_mem_nil, or_false] at ho
    rcases ho with rfl | rfl | rfl | rfl | rfl <;> rfl
  · rintro ⟨j, tick⟩ hp
    rw [torn_result]
    refine Ne.symm ?_
    unfold Moment.store
    unfold Moment.Possible at hp
    cases j with
    | succ j =>
      simp only [List.getElem?_cons_succ, List.getElem?_nil, List.take_succ_cons, List.take_nil]
      exact torn_pieces.2 7 (Nat.le_refl _)
    | zero =>
      simp only [List.getElem?_cons_zero, List.take_zero] at hp ⊢
      cases tick with
      | committed c => exact torn_pieces.2 _ (Nat.min_le_right c 7)
      | translating st' =>
        simp only at hp ⊢
        obtain ⟨-, h1, h2⟩ := hp
        have hst : (saveSamples spreadDict (flushed spreadDict (run spreadDict [] tornOps) []) tornFlush).1.ctx.st =
            (run spreadDict [] tornOps).ctx.st := by decide +kernel
        rw [hst] at h2
        have hl : ∀ x, spreadDict.look st' x = spreadDict.look (run spreadDict [] tornOps).ctx.st x := by
          intro x
          cases e : spreadDict.look st' x with
          | some n => exact (h2 x n e).symm
          | none =>
            cases e' : spreadDict.look (run spreadDict [] tornOps).ctx.st x with
            | none => rfl
            | some n => exact absurd (h1 x n e') (by rw [e]; exact fun h => (nomatch h))
        have := scan_look hl (run spreadDict [] tornOps) toyEnv tornScan
        exact fun e => torn_pieces.1 (this.symm.trans e)

end Verif.St
