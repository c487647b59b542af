import Verif.Lemmas.Scan
import Verif.Props.Store2
/-!
# C26–C29 for every history

What a scan returns after any history of flushes, cut off anywhere, and restarts; no provisos on shards, views or failures of
earlier flushes.
-/
namespace Verif.St
open Tm Tf
open Bt (shardWidth)
variable {σ : Type} (D : Dict σ) (st : σ)

theorem flushes_flatten (ops : List (Op σ)) : ∀ (s : Store σ) (r : Int), (flushes D s r ops).flatten = offered D s r ops := by
  induction ops with
  | nil => intro s r; rfl
  | cons op ops ih => intro s r; cases op <;> simp [flushes, offered, ih]

theorem tag_length (ok : Bool) (r : Int) (ss : List Sample) : (tag ok r ss).length = ss.length := by
  induction ss generalizing r with
  | nil => rfl
  | cons s ss ih => simp [tag, ih]

theorem flushes_length (ops : List (Op σ)) : ∀ (s : Store σ) (r : Int),
    (flushes D s r ops).map List.length = (plain r ops).map fun x => x.2.samples.length := by
  induction ops with
  | nil => intro s r; rfl
  | cons op ops ih => intro s r; cases op <;> simp [flushes, plain, ih, tag_length]

/-- **C29.** What every scan returns after every history, wherever its flushes were cut off: there is an account `L` of what each flush
committed (everything, if it succeeded) such that without read errors every scan returns `answer`. -/
theorem C29_scan_exact (hD : D.Lawful) (hg : D.Good st) (ops : List (Op σ)) (hv : Valid D (fresh st) ops)
    (hi : Increasing (samplesOf D st ops)) :
    ∃ L : List Landed, L.map (·.samples) = flushesOf D st ops ∧ (∀ f ∈ L, f.Fine D (run D st ops).ctx.st) ∧
      ∀ (E : Env) (_ : E.Fair) (_ : E.NoFaults) (sc : Scan),
        scan D (run D st ops) E sc = answer D (run D st ops).ctx.st (run D st ops).idx.opened L E sc := by
  obtain ⟨recs, so, h, hos, -, hpl, -⟩ := hist hD ops (Store.start st (fun _ => none) []) [] [] hg rfl rfl rfl hv
  refine ⟨recs.map Rec.landed, ?_, ?_, fun E hE hF sc => ?_⟩
  · rw [List.eq_iff_flatten_eq]
    refine ⟨?_, ?_⟩
    · show _ = (flushes D (Store.start st (fun _ => none) []) 0 ops).flatten
      rw [flushes_flatten]
      rw [show offered D (Store.start st (fun _ => none) []) 0 ops = _ from hos, List.map_map, List.flatMap_def]
      rfl
    · show _ = (flushes D (Store.start st (fun _ => none) []) 0 ops).map List.length
      rw [flushes_length]
      rw [show plain 0 ops = _ from hpl.symm, List.map_map, List.map_map, List.map_map]
      apply List.map_congr_left
      intro c _
      exact tag_length _ _ _
  · intro f hf
    obtain ⟨c, hc, rfl⟩ := List.mem_map.1 hf
    exact (h.oks c hc).fine
  · exact h.scan_answer (by rw [← show samplesOf D st ops = _ from hos]; exact hi) hE hF sc

/-! ### What the account means -/

section account
variable {D st} {L : List Landed} {opened : List Nat} {views : List Bytes} {sc : Scan} {o : Offered}

/-- **C29.** A sample of a successful flush that has everything asked for and lies in the window is found if and only if the shards of
all labels asked for are open (were written to since the last restart). -/
theorem C29_found_iff (hL : ∀ f ∈ L, f.Fine D st) (f : Landed) (hf : f ∈ L) (ho : o ∈ f.samples)
    (hok : o.ok = true) (hm : o.Matches sc) (hw : ∃ v ∈ views, o.InView v) :
    Finds D st opened L views sc o ↔ ∀ l ∈ sc.asked, ∀ n, D.look st l.encode = some n → n / shardWidth ∈ opened := by
  have hk : ∀ l ∈ sc.asked, ∃ n, D.look st l.encode = some n ∧ o.Numbered D st n := by
    intro l hl
    obtain ⟨l', h1, h2⟩ := hm.2 l hl
    obtain ⟨n, hn⟩ := (hL f hf).known o ho l' h1
    exact ⟨n, by rw [← h2]; exact hn, l', h1, hn⟩
  have hhit : ∀ k, AsksIn D st sc k → HitIn D st L views sc k o := by
    rintro k ⟨l, hl, n, hn, rfl⟩
    obtain ⟨n', hn', hnum⟩ := hk l hl
    rw [hn] at hn'; cases hn'
    exact ⟨List.mem_flatMap.2 ⟨f, hf, ho⟩, hw, ⟨f, hf, ho, (hL f hf).shards o ho hok n hnum⟩, fun l hl n hn _ => let ⟨l', h1, h2⟩ := hm.2 l hl; ⟨l', h1, by rw [h2]; exact hn⟩⟩
  constructor
  · rintro ⟨h1, -⟩ l hl n hn
    obtain ⟨m, hm, hop⟩ := h1 l hl
    rw [hn] at hm; cases hm
    exact hop
  · intro h
    refine ⟨fun l hl => ?_, ?_, fun k hk _ => hhit k hk⟩
    · obtain ⟨n, hn, -⟩ := hk l hl
      exact ⟨n, hn, h l hl n hn⟩
    · obtain ⟨l, hl⟩ := List.exists_mem_of_ne_nil _ hm.1
      obtain ⟨n, hn, -⟩ := hk l hl
      exact ⟨_, ⟨l, hl, n, hn, rfl⟩, o, hhit _ ⟨l, hl, n, hn, rfl⟩⟩

/-- **C28.** A found sample has, for every label asked for, a label with the same number, if every shard that is asked for a label finds
something. -/
theorem C28_found_numbers (hex : ∀ k, AsksIn D st sc k → ∃ o', HitIn D st L views sc k o') (hf : Finds D st opened L views sc o) :
    sc.asked ≠ [] ∧ (∀ l ∈ sc.asked, ∃ n, D.look st l.encode = some n ∧ o.Numbered D st n) ∧ ∃ v ∈ views, o.InView v := by
  obtain ⟨h1, ⟨k, hk, o', ho'⟩, h3⟩ := hf
  have hk0 := hk
  obtain ⟨l0, hl0, -⟩ := hk0
  refine ⟨List.ne_nil_of_mem hl0, fun l hl => ?_, (h3 k hk ⟨o', ho'⟩).2.1⟩
  obtain ⟨n, hn, -⟩ := h1 l hl
  have ha : AsksIn D st sc (n / shardWidth) := ⟨l, hl, n, hn, rfl⟩
  exact ⟨n, hn, (h3 _ ha (hex _ ha)).2.2.2 l hl n hn rfl⟩

/-- **C28.** A found sample has all labels asked for, if every shard that is asked for a label finds something and no two labels have the
same number. -/
theorem C28_found_matches (hI : D.Injective) (hg : D.Good st) (hex : ∀ k, AsksIn D st sc k → ∃ o', HitIn D st L views sc k o') (hf : Finds D st opened L views sc o) :
    o.Matches sc ∧ ∃ v ∈ views, o.InView v := by
  obtain ⟨h1, h2, h3⟩ := C28_found_numbers hex hf
  refine ⟨⟨h1, fun l hl => ?_⟩, h3⟩
  obtain ⟨n, hn, l', h4, h5⟩ := h2 l hl
  exact ⟨l', h4, hI.inj hg h5 hn⟩

/-- **C28.** All labels in one shard: found samples match. -/
theorem C28_one_shard (hI : D.Injective) (hg : D.Good st) (k : Nat) (hk : ∀ l ∈ sc.asked, ∀ n, D.look st l.encode = some n → n / shardWidth = k)
    (hf : Finds D st opened L views sc o) : o.Matches sc ∧ ∃ v ∈ views, o.InView v := by
  refine C28_found_matches hI hg (fun k' hk' => ?_) hf
  obtain ⟨-, ⟨k1, ⟨l1, hl1, n1, hn1, e1⟩, o', ho'⟩, -⟩ := hf
  obtain ⟨l, hl, n, hn, e⟩ := hk'
  rw [hk l1 hl1 n1 hn1] at e1
  rw [hk l hl n hn] at e
  subst e1 e
  exact ⟨o', ho'⟩

/-- **C26.** More filters find no more samples, as long as every shard that is asked for a label finds something (`C26_widens_refuted`
otherwise). -/
theorem C26_never_widens (more : List Filter) (hne : sc.filters.filterMap (·.label sc.scope) ≠ [])
    (hex : ∀ k, AsksIn D st { sc with filters := sc.filters ++ more } k → ∃ o', HitIn D st L views { sc with filters := sc.filters ++ more } k o')
    (hf : Finds D st opened L views { sc with filters := sc.filters ++ more } o) : Finds D st opened L views sc o := by
  have hn1 : sc.filters ≠ [] := fun e => by rw [e] at hne; simp at hne
  have hn2 : sc.filters ++ more ≠ [] := by simp [hn1]
  have ha : Scan.asked { sc with filters := sc.filters ++ more } = sc.asked ++ more.filterMap (·.label sc.scope) := by
    unfold Scan.asked
    rw [if_neg hn1]
    simp only
    rw [if_neg hn2, List.filterMap_append]
  have ha' : sc.asked ≠ [] := by unfold Scan.asked; rw [if_neg hn1]; exact hne
  have hsub : ∀ l ∈ sc.asked, l ∈ Scan.asked { sc with filters := sc.filters ++ more } := fun l hl => by
    rw [ha]; exact List.mem_append_left _ hl
  have hup : ∀ k, AsksIn D st sc k → AsksIn D st { sc with filters := sc.filters ++ more } k := by
    rintro k ⟨l, hl, h⟩; exact ⟨l, hsub l hl, h⟩
  have hdown : ∀ k o, HitIn D st L views { sc with filters := sc.filters ++ more } k o → HitIn D st L views sc k o := by
    rintro k o ⟨h1, h2, h3, h4⟩; exact ⟨h1, h2, h3, fun l hl => h4 l (hsub l hl)⟩
  obtain ⟨h1, -, h3⟩ := hf
  refine ⟨fun l hl => h1 l (hsub l hl), ?_, fun k hk _ => hdown k o (h3 k (hup k hk) (hex k (hup k hk)))⟩
  obtain ⟨l, hl⟩ := List.exists_mem_of_ne_nil _ ha'
  obtain ⟨n, hn, -⟩ := h1 l (hsub l hl)
  have hk : AsksIn D st sc (n / shardWidth) := ⟨l, hl, n, hn, rfl⟩
  exact ⟨_, hk, o, hdown _ o (h3 _ (hup _ hk) (hex _ (hup _ hk)))⟩

/-- The row of a sample that was not among the first flush of a view, or of a view that begins with sample 0, is its own. -/
theorem rowAt_own {kind : Int} {b : List Offered} {rest : List (List Offered)}
    (h : (b.map (·.sample.id)).head? = some 0 ∨ ∀ x ∈ b, x.sample.id ≠ o.sample.id) (hk : o.sample.data.signal = some kind) :
    rowAt kind o (b :: rest) = some o.sample.data := by
  rw [rowAt, if_pos, ofKind, if_pos hk]
  rcases h with h | h
  · exact .inl h
  · right; rintro ⟨x, hx, e⟩; exact h x hx e

/-- Otherwise it is that of the next id, empty, or outside of the table. -/
theorem rowAt_next {kind : Int} {b : List Offered} {rest : List (List Offered)} {p : Data}
    (h : rowAt kind o (b :: rest) = some p) : p = ofKind kind o.sample.data ∨ p = .none ∨
      ∃ x ∈ b, x.sample.id = o.sample.id + 1 ∧ p = ofKind kind x.sample.data := by
  rw [rowAt] at h
  split at h
  · exact .inl (Option.some.inj h).symm
  · split at h
    · rename_i x hx
      have := List.find?_some hx
      rw [beq_iff_eq] at this
      exact .inr (.inr ⟨x, List.mem_of_find?_eq_some hx, this, (Option.some.inj h).symm⟩)
    · split at h
      · cases h
      · exact .inr (.inl (Option.some.inj h).symm)

/-- **C27.** An instant scan reads nothing but the rows of the found sample with the highest id. -/
theorem C27_instant_exact (E : Env) (hr : sc.time.range = none)
    (hscope : sc.scope = Res.metrics ∨ sc.scope = Res.logs ∨ sc.scope = Res.traces)
    (hi : Increasing (allSamples L)) :
    ((∀ o ∈ allSamples L, ¬ Finds D st opened L (E.views sc) sc o) ∧ answer D st opened L E sc = .data (Dt.zero sc.scope)) ∨
    ∃ o ∈ allSamples L, Finds D st opened L (E.views sc) sc o ∧
      (∀ o' ∈ allSamples L, Finds D st opened L (E.views sc) sc o' → o'.sample.id ≤ o.sample.id) ∧
      (answer D st opened L E sc = .undefined ∨
        answer D st opened L E sc = merged E ((E.views sc).flatMap fun v => (filedIn L sc.scope v [o]).filterMap fun o => rowAt sc.scope o (batchesIn L v))) := by
  classical
  have hmem : ∀ o, o ∈ foundBy D st opened L (E.views sc) sc ↔ o ∈ allSamples L ∧ Finds D st opened L (E.views sc) sc o := by
    intro o; unfold foundBy; rw [List.mem_filter, decide_eq_true_eq]
  by_cases hm : foundBy D st opened L (E.views sc) sc = []
  · left
    refine ⟨fun o ho hf => ?_, by unfold answer; simp only; rw [if_pos hm]⟩
    have := (hmem o).2 ⟨ho, hf⟩
    rw [hm] at this; simp at this
  · right
    have hlast := (hmem _).1 (List.getLast_mem hm)
    refine ⟨_, hlast.1, hlast.2, fun o' ho' hf' => ?_, ?_⟩
    · have hinc : Increasing (foundBy D st opened L (E.views sc) sc) := List.Pairwise.filter _ hi
      have hmo := (hmem o').2 ⟨ho', hf'⟩
      rw [← List.dropLast_append_getLast hm] at hmo hinc
      unfold Increasing at hinc
      rw [List.pairwise_append] at hinc
      rcases List.mem_append.1 hmo with h | h
      · exact (hinc.2.2 o' h _ (by simp)).le
      · rw [List.mem_singleton] at h; rw [h]
    · have hp : picked sc (foundBy D st opened L (E.views sc) sc) = [(foundBy D st opened L (E.views sc) sc).getLast hm] := by
        unfold picked; rw [hr]; simp only; rw [List.getLast?_eq_some_getLast hm]; rfl
      unfold answer
      simp only
      rw [if_neg hm, if_pos hscope, hp]
      split
      · exact .inr rfl
      · exact .inl rfl

end account

/-! ## C30 -/

/-- Looking up the labels asked for runs into a read error before it runs into an unknown label. -/
def FaultFirst (D : Dict σ) (st : σ) (E : Env) (ls : List Label) : Prop :=
  ∃ pre l post, ls = pre ++ l :: post ∧ E.findFault l.encode = true ∧
    ∀ x ∈ pre, E.findFault x.encode = false ∧ (D.look st x.encode).isSome

theorem faultFirst_cons (E : Env) (l : Label) (ls : List Label) : FaultFirst D st E (l :: ls) ↔
    E.findFault l.encode = true ∨ E.findFault l.encode = false ∧ (D.look st l.encode).isSome ∧ FaultFirst D st E ls := by
  constructor
  · rintro ⟨pre, x, post, h1, h2, h3⟩
    cases pre with
    | nil => simp only [List.nil_append, List.cons.injEq] at h1; rw [h1.1]; exact .inl h2
    | cons y ys =>
      simp only [List.cons_append, List.cons.injEq] at h1
      obtain ⟨rfl, h1⟩ := h1
      obtain ⟨g1, g2⟩ := h3 l List.mem_cons_self
      exact .inr ⟨g1, g2, ys, x, post, h1, h2, fun z hz => h3 z (List.mem_cons_of_mem _ hz)⟩
  · rintro (h | ⟨h1, h2, pre, x, post, g1, g2, g3⟩)
    · exact ⟨[], l, ls, rfl, h, by simp⟩
    · refine ⟨l :: pre, x, post, by rw [g1]; rfl, g2, fun z hz => ?_⟩
      rcases List.mem_cons.1 hz with rfl | hz
      · exact ⟨h1, h2⟩
      · exact g3 z hz

theorem filterLoop_none (E : Env) (scope : Int) (fs : List Filter) (r : Bm) :
    filterLoop D st E scope fs r = none ↔ FaultFirst D st E (fs.filterMap (·.label scope)) := by
  induction fs generalizing r with
  | nil => simp [filterLoop, FaultFirst]
  | cons f fs ih =>
    cases hl : f.label scope with
    | none => rw [List.filterMap_cons_none hl]; simp only [filterLoop, hl]; exact ih r
    | some l =>
      rw [List.filterMap_cons_some hl, faultFirst_cons]
      simp only [filterLoop, hl, find]
      by_cases hf : E.findFault l.encode = true
      · simp [hf]
      · have hf' : E.findFault l.encode = false := by simpa using hf
        cases hk : D.look st l.encode with
        | none => simp [hf']
        | some n => simp [hf', ih]

theorem compileFilters_none (E : Env) (sc : Scan) : compileFilters D st E sc = none ↔ FaultFirst D st E sc.asked := by
  unfold compileFilters Scan.asked
  split
  · rw [faultFirst_cons]
    unfold find
    by_cases hf : E.findFault (Label.encode { resource := sc.scope }) = true
    · simp [hf]
    · have hf' : E.findFault (Label.encode { resource := sc.scope }) = false := by simpa using hf
      cases hk : D.look st (Label.encode { resource := sc.scope }) with
      | none => simp [hf', FaultFirst]
      | some n => simp [hf', FaultFirst]
  · exact filterLoop_none D st E sc.scope sc.filters []

theorem filterLoop_all (E : Env) (scope : Int) (fs : List Filter) (r : Bm) :
    (∃ cols, filterLoop D st E scope fs r = some cols ∧ cols ≠ []) ↔ (r ≠ [] ∨ fs.filterMap (·.label scope) ≠ []) ∧
      ∀ l ∈ fs.filterMap (·.label scope), E.findFault l.encode = false ∧ (D.look st l.encode).isSome := by
  induction fs generalizing r with
  | nil => simp [filterLoop]
  | cons f fs ih =>
    cases hl : f.label scope with
    | none => rw [List.filterMap_cons_none hl]; simp only [filterLoop, hl]; exact ih r
    | some l =>
      rw [List.filterMap_cons_some hl]
      simp only [filterLoop, hl, find]
      by_cases hf : E.findFault l.encode = true
      · simp [hf]
      · have hf' : E.findFault l.encode = false := by simpa using hf
        cases hk : D.look st l.encode with
        | none => simp [hf', hk]
        | some n =>
          have hne : r.add n ≠ [] := List.ne_nil_of_mem (Bm.mem_add.2 (.inl rfl))
          simp [hf', ih, hne, hk]

/-- All labels asked for can be looked up, and there are some. -/
theorem compileFilters_all (E : Env) (sc : Scan) : (∃ cols, compileFilters D st E sc = some cols ∧ cols ≠ []) ↔
    sc.asked ≠ [] ∧ ∀ l ∈ sc.asked, E.findFault l.encode = false ∧ (D.look st l.encode).isSome := by
  unfold compileFilters Scan.asked
  split
  · unfold find
    by_cases hf : E.findFault (Label.encode { resource := sc.scope }) = true
    · simp [hf]
    · have hf' : E.findFault (Label.encode { resource := sc.scope }) = false := by simpa using hf
      cases hk : D.look st (Label.encode { resource := sc.scope }) with
      | none => simp [hf', hk]
      | some n => simp [hf', hk]
  · rw [filterLoop_all]; simp

/-- **C30**, exactly: a scan returns an error if and only if looking up its labels runs into a read error before an unknown label, or
all of them are known and the index cannot be read, or samples are found for a scope that is no signal. Nothing else does: not a read
error of the data frame. -/
theorem C30_err_iff (s : Store σ) (E : Env) (sc : Scan) :
    scan D s E sc = .err ↔ FaultFirst D s.ctx.st E sc.asked ∨
      sc.asked ≠ [] ∧ (∀ l ∈ sc.asked, E.findFault l.encode = false ∧ (D.look s.ctx.st l.encode).isSome) ∧ (E.rowsFault = true ∨
        found D s E sc ≠ [] ∧ ¬ (sc.scope = Res.metrics ∨ sc.scope = Res.logs ∨ sc.scope = Res.traces)) := by
  rw [← compileFilters_none, ← and_assoc, ← compileFilters_all]
  have hrs : ∀ ids, readSamples s E sc ids = .err ↔ ¬ (sc.scope = Res.metrics ∨ sc.scope = Res.logs ∨ sc.scope = Res.traces) := by
    intro ids
    unfold readSamples
    split
    · rename_i h
      simp only [h, not_true, iff_false]
      split
      · simp
      · simp
      · split <;> simp
    · rename_i h; simp [h]
  unfold scan found
  cases hc : compileFilters D s.ctx.st E sc with
  | none => simp
  | some cols =>
    simp only [reduceCtorEq, Option.some.injEq, false_or, exists_eq_left']
    by_cases hn : cols = []
    · rw [if_pos hn]; simp [hn]
    · rw [if_neg hn, if_neg hn]
      by_cases hr : E.rowsFault = true
      · simp [hr, hn]
      · rw [if_neg hr]
        cases hrw : s.idx.rows (E.views sc) (E.colOrder (Sh.groupCols cols)) with
        | none => simp [hr]
        | some ids =>
          simp only [Option.getD_some]
          by_cases hi : ids = []
          · simp [hi, hr]
          · rw [if_neg hi, hrs]; simp [hr, hn, hi]

/-! ## Examples -/

/-- A first flush of samples 1 and 2, a restart, and a second flush that dies after its payloads were written. -/
def hardOps : List (Op (List Bytes)) :=
  [.flush (logFlush [(1, 5, [97]), (2, 7, [98])] 5), .restart (run listDict [] shiftedOps).ctx.st, .flush (logFlush [(3, 9, [97])] 4)]

theorem hardOps_valid : Valid listDict (fresh []) hardOps := by
  refine ⟨logFlush_fair _ (by decide), by decide +kernel, ?_, fun a n h => h, logFlush_fair _ (by decide), by decide +kernel, trivial⟩
  show List.length _ ≤ 2 ^ 64
  have : List.length (run listDict [] shiftedOps).ctx.st = 4 := by decide +kernel
  rw [this]; decide

theorem hardOps_increasing : Increasing (samplesOf listDict [] hardOps) := by
  unfold Increasing
  rw [← List.pairwise_map (f := fun o : Offered => o.sample.id) (R := (· < ·))]
  decide +kernel

/-- `C29_scan_exact` applies to it. -/
example : ∃ L : List Landed, L.map (·.samples) = flushesOf listDict [] hardOps ∧ L.length = 2 := by
  obtain ⟨L, h, -⟩ := C29_scan_exact listDict [] listDict_lawful (by show 0 ≤ 2 ^ 64; decide) hardOps hardOps_valid hardOps_increasing
  refine ⟨L, h, ?_⟩
  rw [← List.length_map (f := (·.samples)), h]; decide +kernel

end Verif.St
