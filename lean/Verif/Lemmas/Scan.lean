import Verif.Lemmas.Store3
import Verif.Spec.Scan
/-!
# From the records of flushes to the exact result of a scan
-/
namespace Verif.St
open Tm Tf
open Bt (Frags Entry shardWidth pos Owed Good makeFragments)
variable {σ : Type} {D : Dict σ} {st : σ} {c : Rec}

/-- What landed of one flush. -/
def Rec.landed (c : Rec) : Landed where
  samples := c.offered
  views := ((c.fl.viewOrder c.m).take c.fl.commits).map (·.1)
  shards := if c.framed then ((c.fl.shardOrder c.f).take (c.fl.commits - c.m.length)).map (·.1) else []

theorem idxOps_take {bo : AMap Bytes Bm → AMap Bytes Bm} {f : Frags} {n k : Nat} {ws : AMap Bytes Bm} :
    .update k ws true ∈ idxOps bo f n ↔ ∃ e ∈ f.take n, e.1 = k ∧ ws = bo e.2 := by
  induction f generalizing n with
  | nil => simp [idxOps]
  | cons a f ih =>
    obtain ⟨k', vs⟩ := a
    cases n with
    | zero => simp [idxOps]
    | succ n =>
      simp only [idxOps, List.mem_cons, Sh.Op.update.injEq, and_true, ih, List.take_succ_cons, exists_eq_or_imp]
      constructor
      · rintro (⟨rfl, rfl⟩ | h)
        · exact .inl ⟨rfl, rfl⟩
        · exact .inr h
      · rintro (⟨rfl, rfl⟩ | h)
        · exact .inl ⟨rfl, rfl⟩
        · exact .inr h

theorem Rec.Ok.writes_iff (h : c.Ok D st) (v : Bytes) (p k : Nat) :
    (∃ op ∈ c.sops, op.Writes v p k) ↔ k ∈ c.landed.shards ∧ ∃ e ∈ c.es, Owed e k v p := by
  rw [← h.bits k v p]
  unfold Rec.sops Rec.landed
  simp only
  by_cases hf : c.framed = true
  · rw [if_pos hf, if_pos hf]
    constructor
    · rintro ⟨op, ho, hw⟩
      obtain ⟨e, he, ok, rfl⟩ := mem_idxOps ho
      cases ok with
      | false => exact hw.elim
      | true =>
        obtain ⟨rfl, b, hb, hp⟩ := hw
        obtain ⟨e', he', hk, hbo⟩ := idxOps_take.1 ho
        have hmem' := (h.fair.shards _).mem_iff.1 (List.mem_of_mem_take he')
        rw [hbo] at hb
        exact ⟨List.mem_map.2 ⟨e', he', hk⟩, e'.2, b, by rw [← hk]; exact hmem', (h.fair.bits _).mem_iff.1 hb, hp⟩
    · rintro ⟨hk, vs, b, h1, h2, h3⟩
      obtain ⟨e, he, rfl⟩ := List.mem_map.1 hk
      have hmem := (h.fair.shards _).mem_iff.1 (List.mem_of_mem_take he)
      have hvs : e.2 = vs := by
        have e1 := AMap.get_of_mem h.fok.1 hmem
        have e2 := AMap.get_of_mem h.fok.1 h1
        rw [e1] at e2; exact Option.some.inj e2
      refine ⟨.update e.1 (c.fl.bitsOrder e.2) true, idxOps_take.2 ⟨e, he, rfl, rfl⟩, rfl, b, ?_, h3⟩
      rw [hvs]; exact (h.fair.bits _).mem_iff.2 h2
  · rw [if_neg hf, if_neg hf]; simp

section hist
variable {s : Store σ} {recs : List Rec} {so : List Sh.Op}

/-- The index, exactly. -/
theorem Hist.stored_iff (h : Hist D s [] [] recs so) (v : Bytes) (u n : Nat) :
    Sh.Stored so v u n ↔ ∃ c ∈ recs, n / shardWidth ∈ c.landed.shards ∧ ∃ o ∈ c.offered, o.sample.id = u ∧ o.InView v ∧ o.Numbered D s.ctx.st n := by
  constructor
  · rintro ⟨op, ho, hw⟩
    rcases h.wr op ho with rfl | ⟨c, hc, hop⟩
    · exact hw.elim
    · have hok := h.oks c hc
      obtain ⟨hk, e, he, how⟩ := (hok.writes_iff v _ _).1 ⟨op, hop, hw⟩
      obtain ⟨o, hoo, hx⟩ := (Processed.entry c.ok hok.proc).1 e he
      obtain ⟨s1, s2⟩ := hok.small hoo
      exact ⟨c, hc, hk, o, hoo, (owed_iff hx s1 s2 v u n).1 how⟩
  · rintro ⟨c, hc, hk, o, ho, rfl, hv, hn⟩
    have hok := h.oks c hc
    obtain ⟨e, he, hx⟩ := (Processed.entry c.ok hok.proc).2 o ho
    obtain ⟨s1, s2⟩ := hok.small ho
    obtain ⟨op, h1, h2⟩ := (hok.writes_iff v _ _).2 ⟨hk, e, he, (owed_iff hx s1 s2 v _ n).2 ⟨rfl, hv, hn⟩⟩
    exact ⟨op, h.all c hc op h1, h2⟩

theorem allSamples_landed (recs : List Rec) : allSamples (recs.map Rec.landed) = recs.flatMap Rec.offered := by
  unfold allSamples; rw [List.flatMap_map]; rfl

theorem Rec.Ok.fine (h : c.Ok D st) : c.landed.Fine D st := by
  have hviews : c.framed = true → ∀ o ∈ c.offered, ∀ v, o.InView v → v ∈ c.landed.views :=
    fun hf o ho v hv => h.committed hf ho hv
  refine ⟨fun o ho hok v hv => ?_, fun o ho hok n hn => ?_, fun hne => ?_, fun o ho l hl => ?_, fun v hv => ?_⟩
  · rw [tag_ok c.ok c.r c.fl.samples o ho] at hok
    unfold Rec.ok at hok
    rw [Bool.and_eq_true] at hok
    exact hviews hok.1 o ho v hv
  · rw [tag_ok c.ok c.r c.fl.samples o ho] at hok
    obtain ⟨e, he, hx⟩ := (Processed.entry c.ok h.proc).2 o ho
    obtain ⟨s1, s2⟩ := h.small ho
    obtain ⟨t, k, ht⟩ : ∃ t k, Cal.IsTime (toInt64 (startOf o.sample.data)) t k := by
      obtain ⟨t, k, ht, -⟩ := views_spec (toInt64_range _ s1)
      exact ⟨t, k, ht⟩
    have hiv : o.InView (viewPrefix ++ pad4 t.y) := ⟨t, k, ht, by simp [specViews]⟩
    exact ((h.writes_iff _ _ _).1 (h.writes_all hok ⟨e, he, (owed_iff hx s1 s2 _ _ n).2 ⟨rfl, hiv, hn⟩⟩)).1
  · have hf : c.framed = true := by
      by_contra hf
      exact hne (by unfold Rec.landed; simp only; rw [if_neg hf])
    exact hviews hf
  · obtain ⟨e, he, hx⟩ := (Processed.entry c.ok h.proc).2 o ho
    exact hx.known l hl
  · have := Df.inView_ne_nil h.valid (show c.call.Committed v from hv)
    obtain ⟨x, hx⟩ := List.exists_mem_of_ne_nil _ this
    obtain ⟨o, ho, hv, -⟩ := mem_inView.1 hx
    exact ⟨o, ho, hv⟩

open Classical in
theorem batches_landed (recs : List Rec) (v : Bytes) :
    Df.batches (recs.map (·.call)) v = (batchesIn (recs.map Rec.landed) v).map fun b => b.map fun o => norm o.sample := by
  unfold Df.batches batchesIn
  induction recs with
  | nil => rfl
  | cons c recs ih =>
    rw [List.map_cons, List.map_cons, List.filter_cons, List.filter_cons]
    have e : (decide (c.call.Committed v) = true) ↔ (decide (v ∈ c.landed.views) = true) := by
      rw [decide_eq_true_eq, decide_eq_true_eq]; exact Iff.rfl
    have hi : c.call.inView v = (c.offered.filter fun o => decide (o.InView v)).map fun o => norm o.sample := by
      unfold Df.Call.inView
      simp only [Rec.call]
      rw [Rec.ss_eq, List.filter_map]
      congr 1
    by_cases hc : decide (c.call.Committed v) = true
    · rw [if_pos hc, if_pos (e.1 hc), List.map_cons, List.map_cons, List.map_cons, ih, hi]; rfl
    · rw [if_neg hc, if_neg (fun h => hc (e.2 h)), ih]

/-- The lookup, exactly. -/
theorem Hist.found_iff (h : Hist D s [] [] recs so) (hi : Increasing (recs.flatMap Rec.offered)) {E : Env}
    (hE : E.Fair) (hF : ∀ k, E.findFault k = false) {sc : Scan} {cols : Bm} (hc : compileFilters D s.ctx.st E sc = some cols) (u : Nat) :
    u ∈ (s.idx.rows (E.views sc) (E.colOrder (Sh.groupCols cols))).getD [] ↔
      ∃ o ∈ recs.flatMap Rec.offered, o.sample.id = u ∧ Finds D s.ctx.st s.idx.opened (recs.map Rec.landed) (E.views sc) sc o := by
  obtain ⟨b, h1, -, h3⟩ := compileFilters_spec (D := D) (st := s.ctx.st) hF sc
  rw [hc] at h1; cases h1
  have hL := allSamples_landed recs
  -- what a shard finds
  have hhit : ∀ k, (∃ n ∈ cols, n / shardWidth = k) → ∀ u, Sh.HasAllIn so (E.views sc) cols k u ↔
      ∃ o, o.sample.id = u ∧ HitIn D s.ctx.st (recs.map Rec.landed) (E.views sc) sc k o := by
    rintro k ⟨n0, hn0, hk0⟩ u
    have hall := ((h3 n0).1 hn0).1
    constructor
    · rintro ⟨v, hv, hst⟩
      obtain ⟨c, hcm, hk, o, ho, hid, hiv, -⟩ := (h.stored_iff v u n0).1 (hst n0 hn0 hk0)
      rw [hk0] at hk
      refine ⟨o, hid, ?_, ⟨v, hv, hiv⟩, ⟨c.landed, List.mem_map.2 ⟨c, hcm, rfl⟩, ho, hk⟩, fun l hl n hn hnk => ?_⟩
      · rw [hL]; exact List.mem_flatMap.2 ⟨c, hcm, ho⟩
      · obtain ⟨c', hcm', -, o', ho', hid', -, l', hl', hln⟩ := (h.stored_iff v u n).1 (hst n ((h3 n).2 ⟨hall, l, hl, hn⟩) hnk)
        have : o' = o := unique hi (List.mem_flatMap.2 ⟨c', hcm', ho'⟩) (List.mem_flatMap.2 ⟨c, hcm, ho⟩) (hid'.trans hid.symm)
        subst this
        exact ⟨l', hl', hln⟩
    · rintro ⟨o, rfl, ho, ⟨v, hv, hiv⟩, ⟨f, hf, hof, hk⟩, hlab⟩
      obtain ⟨c, hcm, rfl⟩ := List.mem_map.1 hf
      refine ⟨v, hv, fun n hn hnk => ?_⟩
      obtain ⟨l, hl, hln⟩ := ((h3 n).1 hn).2
      obtain ⟨l', hl', he⟩ := hlab l hl n hln hnk
      exact (h.stored_iff v _ n).2 ⟨c, hcm, by rw [hnk]; exact hk, o, hof, rfl, hiv, l', hl', he⟩
  have hasks : ∀ k, (∃ n ∈ cols, n / shardWidth = k) → AsksIn D s.ctx.st sc k := by
    rintro k ⟨n, hn, hk⟩
    obtain ⟨l, hl, hln⟩ := ((h3 n).1 hn).2
    exact ⟨l, hl, n, hln, hk⟩
  rw [h.idx', Sh.C21_lookup_exact so _ cols _ (hE.cols _)]
  have hopen : ∀ n, n / shardWidth ∈ (Sh.run so).opened ↔ Sh.Open so (n / shardWidth) := fun n => Sh.mem_opened_run so _
  constructor
  · rintro ⟨g1, ⟨n0, hn0, u0, hu0⟩, g3⟩
    have hall := ((h3 n0).1 hn0).1
    have hcols : ∀ k, AsksIn D s.ctx.st sc k → ∃ n ∈ cols, n / shardWidth = k := by
      rintro k ⟨l, hl, n, hn, hk⟩
      exact ⟨n, (h3 n).2 ⟨hall, l, hl, hn⟩, hk⟩
    obtain ⟨o, hid, hho⟩ := (hhit _ ⟨n0, hn0, rfl⟩ u).1 (g3 n0 hn0 ⟨u0, hu0⟩)
    have ho : o ∈ recs.flatMap Rec.offered := by have := hho.1; rwa [hL] at this
    refine ⟨o, ho, hid, fun l hl => ?_, ⟨_, hasks _ ⟨n0, hn0, rfl⟩, o, hho⟩, fun k hk hex => ?_⟩
    · obtain ⟨n, hn⟩ := hall l hl
      exact ⟨n, hn, (hopen n).2 (g1 n ((h3 n).2 ⟨hall, l, hl, hn⟩))⟩
    · obtain ⟨n, hn, hnk⟩ := hcols k hk
      obtain ⟨o', hho'⟩ := hex
      subst hnk
      obtain ⟨o2, hid2, hh2⟩ := (hhit _ ⟨n, hn, rfl⟩ u).1 (g3 n hn ⟨_, (hhit _ ⟨n, hn, rfl⟩ _).2 ⟨o', rfl, hho'⟩⟩)
      have ho2 : o2 ∈ recs.flatMap Rec.offered := by have := hh2.1; rwa [hL] at this
      have : o2 = o := unique hi ho2 ho (hid2.trans hid.symm)
      subst this
      exact hh2
  · rintro ⟨o, ho, rfl, g1, ⟨k0, hk0, o0, ho0⟩, g3⟩
    have hall : ∀ l ∈ sc.asked, ∃ m, D.look s.ctx.st l.encode = some m := fun l hl => (g1 l hl).imp fun _ h => h.1
    have hcols : ∀ k, AsksIn D s.ctx.st sc k → ∃ n ∈ cols, n / shardWidth = k := by
      rintro k ⟨l, hl, n, hn, hk⟩
      exact ⟨n, (h3 n).2 ⟨hall, l, hl, hn⟩, hk⟩
    refine ⟨fun n hn => ?_, ?_, fun n hn hex => ?_⟩
    · obtain ⟨l, hl, hln⟩ := ((h3 n).1 hn).2
      obtain ⟨m, hm, hop⟩ := g1 l hl
      rw [hln] at hm; cases hm
      exact (hopen n).1 hop
    · obtain ⟨n, hn, hnk⟩ := hcols k0 hk0
      exact ⟨n, hn, _, (hhit _ ⟨n, hn, rfl⟩ _).2 ⟨o0, rfl, by rw [hnk]; exact ho0⟩⟩
    · obtain ⟨u', hu'⟩ := hex
      obtain ⟨o', -, ho'⟩ := (hhit _ ⟨n, hn, rfl⟩ u').1 hu'
      exact (hhit _ ⟨n, hn, rfl⟩ _).2 ⟨o, rfl, g3 _ (hasks _ ⟨n, hn, rfl⟩) ⟨o', ho'⟩⟩

open Classical in
theorem Hist.found_list (h : Hist D s [] [] recs so) (hi : Increasing (recs.flatMap Rec.offered)) {E : Env}
    (hE : E.Fair) (hF : ∀ k, E.findFault k = false) {sc : Scan} {cols : Bm} (hc : compileFilters D s.ctx.st E sc = some cols) :
    (s.idx.rows (E.views sc) (E.colOrder (Sh.groupCols cols))).getD [] =
      (foundBy D s.ctx.st s.idx.opened (recs.map Rec.landed) (E.views sc) sc).map (·.sample.id) := by
  unfold foundBy
  rw [allSamples_landed]
  refine Bm.ext (ids_ok _ _ _) (increasing_filter hi _) fun u => ?_
  rw [h.found_iff hi hE hF hc u, List.mem_map]
  constructor
  · rintro ⟨o, ho, hid, hf⟩
    exact ⟨o, List.mem_filter.2 ⟨ho, decide_eq_true hf⟩, hid⟩
  · rintro ⟨o, ho, hid⟩
    obtain ⟨h1, h2⟩ := List.mem_filter.1 ho
    exact ⟨o, h1, hid, of_decide_eq_true h2⟩

/-! ### Reading -/

theorem project_ofKind (kind : Int) (d : Data) : Df.project kind d = ofKind kind d := by
  unfold ofKind
  split
  · rename_i h; exact Df.project_eq h
  · rename_i hk
    cases d with
    | none => rfl
    | metrics rs => simp only [Df.project]; rw [if_neg]; rintro e; exact hk (by rw [e]; rfl)
    | traces rs => simp only [Df.project]; rw [if_neg]; rintro e; exact hk (by rw [e]; rfl)
    | logs rs => simp only [Df.project]; rw [if_neg]; rintro e; exact hk (by rw [e]; rfl)

theorem readRows_opt {kind : Int} {rows : List Data} {f : Offered → Option Data} (L : List Offered)
    (h : ∀ o ∈ L, (rows[o.sample.id]?).map (Df.project kind) = f o) :
    (∀ o ∈ L, (f o).isSome) ∧ (∃ l, Df.readRows kind rows (L.map (·.sample.id)) = .ok l ∧ l.map (·.2) = L.filterMap f) ∨
    ¬ (∀ o ∈ L, (f o).isSome) ∧ Df.readRows kind rows (L.map (·.sample.id)) = .outOfRange := by
  induction L with
  | nil => exact .inl ⟨by simp, [], rfl, rfl⟩
  | cons o L ih =>
    have h0 := h o List.mem_cons_self
    rw [List.map_cons, Df.readRows]
    cases hr : rows[o.sample.id]? with
    | none =>
      rw [hr] at h0
      refine .inr ⟨fun hall => ?_, rfl⟩
      have := hall o List.mem_cons_self
      rw [← h0] at this; simp at this
    | some d =>
      rw [hr, Option.map_some] at h0
      simp only
      rcases ih fun x hx => h x (List.mem_cons_of_mem _ hx) with ⟨h1, l, h2, h3⟩ | ⟨h1, h2⟩
      · refine .inl ⟨fun x hx => ?_, _, by rw [h2], ?_⟩
        · rcases List.mem_cons.1 hx with rfl | hx
          · rw [← h0]; rfl
          · exact h1 x hx
        · rw [List.filterMap_cons_some h0.symm, List.map_cons, h3]
      · refine .inr ⟨fun hall => h1 fun x hx => hall x (List.mem_cons_of_mem _ hx), by rw [h2]⟩

open Classical in
theorem mem_batchesIn {L : List Landed} {v : Bytes} {o : Offered} :
    o ∈ (batchesIn L v).flatten ↔ (∃ f ∈ L, o ∈ f.samples ∧ v ∈ f.views) ∧ o.InView v := by
  unfold batchesIn
  simp only [List.mem_flatten, List.mem_map, List.mem_filter, decide_eq_true_eq]
  constructor
  · rintro ⟨b, ⟨f, ⟨hf, hv⟩, rfl⟩, ho⟩
    obtain ⟨h1, h2⟩ := List.mem_filter.1 ho
    exact ⟨⟨f, hf, h1, hv⟩, of_decide_eq_true h2⟩
  · rintro ⟨⟨f, hf, ho, hv⟩, hiv⟩
    exact ⟨_, ⟨f, ⟨hf, hv⟩, rfl⟩, List.mem_filter.2 ⟨ho, decide_eq_true hiv⟩⟩

/-- The row of a filed sample. -/
theorem row_exact {bs : List (List Offered)} {b0 : List Offered} {rest : List (List Offered)} {r : Df.VRec} {kind : Int}
    (hb : bs = b0 :: rest) (hinc : bs.flatten.Pairwise fun a b => a.sample.id < b.sample.id)
    (h0 : ∀ o ∈ b0, Df.shift [b0.map fun o => norm o.sample] ≤ o.sample.id ∧
      r.rows[o.sample.id - Df.shift [b0.map fun o => norm o.sample]]? = some o.sample.data)
    (h1 : ∀ o ∈ rest.flatten, r.rows[o.sample.id]? = some o.sample.data)
    (h2 : ∀ i, i < r.rows.length → (∀ o ∈ b0, o.sample.id - Df.shift [b0.map fun o => norm o.sample] ≠ i) →
      (∀ o ∈ rest.flatten, o.sample.id ≠ i) → r.rows[i]? = some .none)
    (h3 : ∃ o ∈ bs.flatten, (∀ t ∈ bs.flatten, t.sample.id ≤ o.sample.id) ∧
      r.rows.length = o.sample.id + 1 - (if rest = [] then Df.shift [b0.map fun o => norm o.sample] else 0))
    {o : Offered} (ho : o ∈ bs.flatten) : (r.rows[o.sample.id]?).map (Df.project kind) = rowAt kind o bs := by
  subst hb
  have hsh : Df.shift [b0.map fun o => norm o.sample] = if (b0.map (·.sample.id)).head? = some 0 ∨ b0 = [] then 0 else 1 := by
    cases b0 with
    | nil => simp [Df.shift]
    | cons x xs =>
      simp only [List.map_cons, Df.shift, List.head?_cons, Option.some.injEq, reduceCtorEq, or_false]
      rfl
  rw [List.flatten_cons] at ho hinc
  rw [List.pairwise_append] at hinc
  simp only [rowAt]
  by_cases hA : (b0.map (·.sample.id)).head? = some 0 ∨ ¬ ∃ x ∈ b0, x.sample.id = o.sample.id
  · rw [if_pos hA]
    have : r.rows[o.sample.id]? = some o.sample.data := by
      rcases List.mem_append.1 ho with ho | ho
      · rcases hA with hA | hA
        · have := (h0 o ho).2
          rw [hsh, if_pos (.inl hA)] at this
          exact this
        · exact absurd ⟨o, ho, rfl⟩ hA
      · exact h1 o ho
    rw [this, Option.map_some, project_ofKind]
  · rw [if_neg hA]
    rw [not_or, not_not] at hA
    obtain ⟨hA1, x0, hx0, hx0id⟩ := hA
    have hne : b0 ≠ [] := List.ne_nil_of_mem hx0
    rw [if_neg (by rw [not_or]; exact ⟨hA1, hne⟩)] at hsh
    rw [hsh] at h0 h2 h3
    cases hf : b0.find? fun x => x.sample.id == o.sample.id + 1 with
    | some x =>
      have hxm := List.mem_of_find?_eq_some hf
      have hxid := List.find?_some hf
      rw [beq_iff_eq] at hxid
      have := (h0 x hxm).2
      rw [hxid, Nat.add_sub_cancel] at this
      simp only
      rw [this, Option.map_some, project_ofKind]
    | none =>
      rw [List.find?_eq_none] at hf
      have hf : ∀ x ∈ b0, x.sample.id ≠ o.sample.id + 1 := fun x hx e => hf x hx (by rw [beq_iff_eq]; exact e)
      simp only
      obtain ⟨m, hm, hmax, hlen⟩ := h3
      by_cases hB : rest = [] ∧ ∀ x ∈ b0, x.sample.id ≤ o.sample.id
      · rw [if_pos hB]
        obtain ⟨hr, hle⟩ := hB
        subst hr
        rw [if_pos rfl] at hlen
        have hmo : m.sample.id ≤ o.sample.id := hle m (by simpa using hm)
        rw [List.getElem?_eq_none (by omega)]
        rfl
      · rw [if_neg hB]
        have hlt : o.sample.id < r.rows.length := by
          by_cases hr : rest = []
          · subst hr
            rw [if_pos rfl] at hlen
            simp only [true_and, not_forall, not_le] at hB
            obtain ⟨x, hx, hxo⟩ := hB
            have := hmax x (by simpa using hx)
            omega
          · rw [if_neg hr] at hlen
            have := hmax o (by rw [List.flatten_cons]; exact ho)
            omega
        rw [h2 _ hlt (fun x hx e => ?_) (fun x hx e => ?_), Option.map_some]
        · rfl
        · have := (h0 x hx).1
          exact hf x hx (by omega)
        · have := hinc.2.2 x0 hx0 x hx
          omega

open Classical in
/-- Reading one view. -/
theorem Hist.readView_scan (h : Hist D s [] [] recs so) (hi : Increasing (recs.flatMap Rec.offered))
    {fault : Bytes → Bool} (hf : ∀ v, fault v = false) (v : Bytes) (kind : Int) (W : List Offered)
    (hW : W.Sublist (recs.flatMap Rec.offered)) :
    (∀ o ∈ filedIn (recs.map Rec.landed) kind v W, (rowAt kind o (batchesIn (recs.map Rec.landed) v)).isSome) ∧
      (∃ l, Df.readView s.frame fault kind (W.map (·.sample.id)) v = .ok l ∧
        l.map (·.2) = (filedIn (recs.map Rec.landed) kind v W).filterMap fun o => rowAt kind o (batchesIn (recs.map Rec.landed) v)) ∨
    ¬ (∀ o ∈ filedIn (recs.map Rec.landed) kind v W, (rowAt kind o (batchesIn (recs.map Rec.landed) v)).isSome) ∧
      Df.readView s.frame fault kind (W.map (·.sample.id)) v = .outOfRange := by
  have hbs := batches_landed recs v
  have hmemF : ∀ o, o ∈ filedIn (recs.map Rec.landed) kind v W ↔
      o ∈ W ∧ o ∈ (batchesIn (recs.map Rec.landed) v).flatten ∧ o.sample.data.signal = some kind := by
    intro o
    unfold filedIn
    rw [List.mem_filter, decide_eq_true_eq, mem_batchesIn, and_assoc]
  have hsub : (filedIn (recs.map Rec.landed) kind v W).Sublist W := List.filter_sublist
  generalize hLb : batchesIn (recs.map Rec.landed) v = bs at hbs hmemF ⊢
  generalize hFd : filedIn (recs.map Rec.landed) kind v W = F at hmemF hsub ⊢
  have hsamp : ∀ o ∈ bs.flatten, o ∈ recs.flatMap Rec.offered := by
    intro o ho
    rw [← hLb, mem_batchesIn] at ho
    obtain ⟨⟨f, hf, ho, -⟩, -⟩ := ho
    rw [← allSamples_landed]
    exact List.mem_flatMap.2 ⟨f, hf, ho⟩
  unfold Df.readView
  rw [hf v, h.frame', Df.run_view _ h.valid, hbs]
  simp only [Bool.false_eq_true, if_false]
  cases hc : bs with
  | nil =>
    left
    have hF : F = [] := by
      rw [List.eq_nil_iff_forall_not_mem]
      intro o ho
      have := ((hmemF o).1 ho).2.1
      rw [hc] at this; simp at this
    subst hF
    exact ⟨by simp, [], rfl, rfl⟩
  | cons b0 rest =>
    have hinc : Df.Increasing (Df.batches (recs.map (·.call)) v) := batches_increasing hi v
    obtain ⟨r, hr, g0, g1, g2, s0, g3, g4, g5⟩ := Df.C23_layout_exact _ h.valid v (b0.map fun o => norm o.sample)
      (rest.map fun b => b.map fun o => norm o.sample) (by rw [hbs, hc]; rfl) hinc
    rw [Df.run_view _ h.valid, hbs, hc] at hr
    rw [hr]
    simp only
    have hset : (r.set kind).and (W.map (·.sample.id)) = F.map (·.sample.id) := by
      have hok : Bm.Ok (F.map (·.sample.id)) := by
        unfold Bm.Ok
        rw [List.pairwise_map]
        exact List.Pairwise.sublist (hsub.trans hW) hi
      refine Bm.ext (Bm.and_ok (set_ok_build hr kind)) hok fun i => ?_
      rw [Bm.mem_and, Df.mem_set_build _ kind i r hr, List.mem_map, List.mem_map]
      rw [← hc]
      constructor
      · rintro ⟨⟨x, hx, rfl, hk⟩, o, ho, hid⟩
        rw [← List.map_flatten] at hx
        obtain ⟨o', ho', rfl⟩ := List.mem_map.1 hx
        have : o = o' := unique hi (hW.subset ho) (hsamp o' ho') hid
        subst this
        exact ⟨o, (hmemF o).2 ⟨ho, ho', hk⟩, rfl⟩
      · rintro ⟨o, ho, rfl⟩
        obtain ⟨e1, e2, e3⟩ := (hmemF o).1 ho
        refine ⟨⟨norm o.sample, ?_, rfl, e3⟩, o, e1, rfl⟩
        rw [← List.map_flatten]
        exact List.mem_map.2 ⟨o, e2, rfl⟩
    rw [hset]
    have hrow : ∀ o ∈ F, (r.rows[o.sample.id]?).map (Df.project kind) = rowAt kind o bs := by
      intro o ho
      refine row_exact hc ?_ (fun x hx => g0 (norm x.sample) (List.mem_map.2 ⟨x, hx, rfl⟩)) (fun x hx => ?_) (fun i hi' hA hB => ?_) ?_ ((hmemF o).1 ho).2.1
      · have := hinc
        rw [hbs] at this
        unfold Df.Increasing at this
        rw [← List.map_flatten, List.pairwise_map] at this
        exact this
      · exact g1 (norm x.sample) (by rw [← List.map_flatten]; exact List.mem_map.2 ⟨x, hx, rfl⟩)
      · refine g2 i hi' (fun y hy => ?_) (fun y hy => ?_)
        · obtain ⟨x, hx, rfl⟩ := List.mem_map.1 hy
          exact hA x hx
        · rw [← List.map_flatten] at hy
          obtain ⟨x, hx, rfl⟩ := List.mem_map.1 hy
          exact hB x hx
      · rw [hbs, ← List.map_flatten] at g3 g4
        obtain ⟨m, hm, rfl⟩ := List.mem_map.1 g3
        refine ⟨m, hm, fun t ht => g4 (norm t.sample) (List.mem_map.2 ⟨t, ht, rfl⟩), ?_⟩
        rw [g5]
        simp only [List.map_eq_nil_iff]
        rfl
    rw [← hc]
    by_cases hF : F = []
    · subst hF
      exact .inl ⟨by simp, [], by simp, rfl⟩
    · rw [if_neg (by rw [List.map_eq_nil_iff]; exact hF)]
      exact readRows_opt F hrow

open Classical in
/-- Reading all views. -/
theorem Hist.unmarshal_scan (h : Hist D s [] [] recs so) (hi : Increasing (recs.flatMap Rec.offered))
    {fault : Bytes → Bool} (hf : ∀ v, fault v = false) (kind : Int) (W : List Offered)
    (hW : W.Sublist (recs.flatMap Rec.offered)) (views : List Bytes) :
    (∀ v ∈ views, ∀ o ∈ filedIn (recs.map Rec.landed) kind v W, (rowAt kind o (batchesIn (recs.map Rec.landed) v)).isSome) ∧
      (∃ l, Df.unmarshal s.frame fault kind (W.map (·.sample.id)) views = .ok l ∧
        l.map (·.2) = views.flatMap fun v => (filedIn (recs.map Rec.landed) kind v W).filterMap fun o =>
          rowAt kind o (batchesIn (recs.map Rec.landed) v)) ∨
    ¬ (∀ v ∈ views, ∀ o ∈ filedIn (recs.map Rec.landed) kind v W, (rowAt kind o (batchesIn (recs.map Rec.landed) v)).isSome) ∧
      Df.unmarshal s.frame fault kind (W.map (·.sample.id)) views = .outOfRange := by
  induction views with
  | nil => exact .inl ⟨by simp, [], rfl, rfl⟩
  | cons v vs ih =>
    rw [Df.unmarshal]
    rcases h.readView_scan hi hf v kind W hW with ⟨h1, l, h2, h3⟩ | ⟨h1, h2⟩
    · rw [h2]
      rcases ih with ⟨i1, l', i2, i3⟩ | ⟨i1, i2⟩
      · refine .inl ⟨fun w hw => ?_, l ++ l', by rw [i2], ?_⟩
        · rcases List.mem_cons.1 hw with rfl | hw
          · exact h1
          · exact i1 w hw
        · rw [List.map_append, h3, i3, List.flatMap_cons]
      · exact .inr ⟨fun hall => i1 fun w hw => hall w (List.mem_cons_of_mem _ hw), by rw [i2]⟩
    · exact .inr ⟨fun hall => h1 (hall v List.mem_cons_self), by rw [h2]⟩

open Classical in
/-- What a scan returns, for every history. -/
theorem Hist.scan_answer (h : Hist D s [] [] recs so) (hi : Increasing (recs.flatMap Rec.offered)) {E : Env}
    (hE : E.Fair) (hF : E.NoFaults) (sc : Scan) :
    scan D s E sc = answer D s.ctx.st s.idx.opened (recs.map Rec.landed) E sc := by
  obtain ⟨cols, hc, -, h3⟩ := compileFilters_spec (D := D) (st := s.ctx.st) hF.find sc
  have hex := h.found_list hi hE hF.find hc
  unfold scan answer
  rw [hc]
  simp only
  generalize hm : foundBy D s.ctx.st s.idx.opened (recs.map Rec.landed) (E.views sc) sc = M at hex ⊢
  by_cases hcn : cols = []
  · have h0 : (s.idx.rows (E.views sc) (E.colOrder (Sh.groupCols []))).getD [] = [] := by
      rw [h.idx', List.eq_nil_iff_forall_not_mem]
      intro u hu
      rw [Sh.C21_lookup_exact so _ [] _ (hE.cols _)] at hu
      obtain ⟨-, ⟨c, hc, -⟩, -⟩ := hu
      simp at hc
    rw [hcn, h0] at hex
    rw [if_pos hcn, if_pos (List.map_eq_nil_iff.1 hex.symm)]
  · rw [if_neg hcn, hF.rows]
    simp only [Bool.false_eq_true, if_false]
    have hMs : M.Sublist (recs.flatMap Rec.offered) := by
      rw [← hm, ← allSamples_landed]; exact List.filter_sublist
    cases hr : s.idx.rows (E.views sc) (E.colOrder (Sh.groupCols cols)) with
    | none =>
      rw [hr, Option.getD_none, eq_comm, List.map_eq_nil_iff] at hex
      rw [if_pos hex]
    | some ids =>
      rw [hr, Option.getD_some] at hex
      simp only
      by_cases hn : M = []
      · rw [if_pos hn, if_pos (by rw [hex, hn]; rfl)]
      · rw [if_neg hn, if_neg (by rw [hex, List.map_eq_nil_iff]; exact hn), hex, chosen_map]
        unfold readSamples
        by_cases hs : sc.scope = Res.metrics ∨ sc.scope = Res.logs ∨ sc.scope = Res.traces
        · rw [if_pos hs, if_pos hs]
          rcases h.unmarshal_scan hi hF.frame sc.scope (picked sc M) ((picked_sublist sc M).trans hMs) (E.views sc) with
            ⟨h1, l, h2, h3⟩ | ⟨h1, h2⟩
          · rw [if_pos h1, h2]
            simp only
            rw [h3]
            rfl
          · rw [if_neg h1, h2]
        · rw [if_neg hs, if_neg hs]

end hist
end Verif.St
