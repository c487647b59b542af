import Verif.Lemmas.Store2
import Verif.Props.Labels
/-!
# Scanning
-/
namespace Verif.St
open Tm Tf
open Bt (Frags shardWidth)
variable {σ : Type} {D : Dict σ} {st : σ}

/-! ### Filters -/

theorem find_noFault {E : Env} (hE : ∀ k, E.findFault k = false) (l : Label) :
    find D st E l = match D.look st l.encode with | none => .notFound | some n => .col n := by
  unfold find; simp only [hE]; rfl

theorem filterLoop_spec {E : Env} (hE : ∀ k, E.findFault k = false) (scope : Int) (fs : List Filter) (r : Bm) (hr : r.Ok) :
    ∃ b, filterLoop D st E scope fs r = some b ∧ b.Ok ∧
      ∀ n, n ∈ b ↔ (∀ l ∈ fs.filterMap (·.label scope), ∃ m, D.look st l.encode = some m) ∧
        (n ∈ r ∨ ∃ l ∈ fs.filterMap (·.label scope), D.look st l.encode = some n) := by
  induction fs generalizing r with
  | nil => exact ⟨r, rfl, hr, by simp⟩
  | cons f fs ih =>
    unfold filterLoop
    cases hl : f.label scope with
    | none =>
      simp only
      rw [List.filterMap_cons_none hl]
      exact ih r hr
    | some l =>
      simp only [find_noFault hE]
      rw [List.filterMap_cons_some hl]
      cases hk : D.look st l.encode with
      | none =>
        refine ⟨[], rfl, Bm.nil_ok, fun n => ⟨by simp, fun h => ?_⟩⟩
        obtain ⟨m, hm⟩ := h.1 l List.mem_cons_self
        rw [hk] at hm; cases hm
      | some k =>
        obtain ⟨b, h1, h2, h3⟩ := ih (r.add k) (Bm.add_ok hr k)
        refine ⟨b, h1, h2, fun n => ?_⟩
        rw [h3, Bm.mem_add]
        simp only [List.mem_cons, forall_eq_or_imp, exists_eq_or_imp, hk, Option.some.injEq, exists_eq', true_and]
        constructor
        · rintro ⟨a, (h | h) | h⟩
          · exact ⟨a, .inr (.inl h.symm)⟩
          · exact ⟨a, .inl h⟩
          · exact ⟨a, .inr (.inr h)⟩
        · rintro ⟨a, h | h | h⟩
          · exact ⟨a, .inl (.inr h)⟩
          · exact ⟨a, .inl (.inl h.symm)⟩
          · exact ⟨a, .inr h⟩

theorem compileFilters_spec {E : Env} (hE : ∀ k, E.findFault k = false) (sc : Scan) :
    ∃ b, compileFilters D st E sc = some b ∧ b.Ok ∧
      ∀ n, n ∈ b ↔ (∀ l ∈ sc.asked, ∃ m, D.look st l.encode = some m) ∧ ∃ l ∈ sc.asked, D.look st l.encode = some n := by
  unfold compileFilters Scan.asked
  split
  · rw [find_noFault hE]
    cases hk : D.look st (Label.encode { resource := sc.scope }) with
    | none => exact ⟨[], rfl, Bm.nil_ok, by simp [hk]⟩
    | some k => exact ⟨[k], rfl, by simp [Bm.Ok], by simp [hk, eq_comm]⟩
  · obtain ⟨b, h1, h2, h3⟩ := filterLoop_spec (D := D) (st := st) hE sc.scope sc.filters [] Bm.nil_ok
    exact ⟨b, h1, h2, fun n => by rw [h3]; simp⟩

/-! ### The index lookup of a scan -/

section hist
variable {s : Store σ} {recs : List Rec} {so : List Sh.Op}

theorem unique {os : List Offered} (hi : Increasing os) {a b : Offered} (ha : a ∈ os) (hb : b ∈ os)
    (h : a.sample.id = b.sample.id) : a = b := by
  unfold Increasing at hi
  induction os with
  | nil => simp at ha
  | cons x xs ih =>
    rw [List.pairwise_cons] at hi
    rcases List.mem_cons.1 ha with ea | ha <;> rcases List.mem_cons.1 hb with eb | hb
    · rw [ea, eb]
    · have := hi.1 b hb; rw [ea] at h; omega
    · have := hi.1 a ha; rw [eb] at h; omega
    · exact ih hi.2 ha hb

/-- Soundness of the lookup when the columns are in one shard. -/
theorem Hist.found_sound (h : Hist D s [] [] recs so) (hI : D.Injective) (hi : Increasing (recs.flatMap Rec.offered)) {E : Env}
    (hE : E.Fair) (hF : ∀ k, E.findFault k = false) {sc : Scan} {k : Nat}
    (hk : ∀ l ∈ sc.asked, ∀ n, D.look s.ctx.st l.encode = some n → n / shardWidth = k)
    {cols : Bm} (hc : compileFilters D s.ctx.st E sc = some cols) {u : Nat}
    (hu : u ∈ (s.idx.rows (E.views sc) (E.colOrder (Sh.groupCols cols))).getD []) :
    ∃ c ∈ recs, c.framed = true ∧ ∃ o ∈ c.offered, o.sample.id = u ∧ o.Matches sc ∧ ∃ v ∈ E.views sc, o.InView v := by
  obtain ⟨b, h1, -, h3⟩ := compileFilters_spec (D := D) (st := s.ctx.st) hF sc
  rw [hc] at h1; cases h1
  rw [h.idx', Sh.C21_lookup_exact so _ cols _ (hE.cols _)] at hu
  obtain ⟨-, ⟨n0, hn0, hu0⟩, hu3⟩ := hu
  obtain ⟨v, hv, hall⟩ := hu3 n0 hn0 hu0
  have hsh : ∀ n ∈ cols, n / shardWidth = k := fun n hn => by
    obtain ⟨l, hl, hln⟩ := ((h3 n).1 hn).2
    exact hk l hl n hln
  have hall' : ∀ n ∈ cols, Sh.Stored so v u n := fun n hn => hall n hn (by rw [hsh n hn, hsh n0 hn0])
  obtain ⟨c, hcm, hf, o, ho, hid, hiv, -⟩ := h.stored_sound (hall' n0 hn0)
  refine ⟨c, hcm, hf, o, ho, hid, ⟨?_, fun l hl => ?_⟩, v, hv, hiv⟩
  · obtain ⟨l, hl, -⟩ := ((h3 n0).1 hn0).2
    exact List.ne_nil_of_mem hl
  · obtain ⟨m, hm⟩ := ((h3 n0).1 hn0).1 l hl
    have hmc : m ∈ cols := (h3 m).2 ⟨((h3 n0).1 hn0).1, l, hl, hm⟩
    obtain ⟨c', hcm', -, o', ho', hid', -, l', hl', hlm⟩ := h.stored_sound (hall' m hmc)
    have : o' = o := unique hi (List.mem_flatMap.2 ⟨c', hcm', ho'⟩) (List.mem_flatMap.2 ⟨c, hcm, ho⟩) (hid'.trans hid.symm)
    subst this
    exact ⟨l', hl', hI.inj h.good hlm hm⟩

/-- Completeness of the lookup for samples of successful flushes. -/
theorem Hist.found_complete (h : Hist D s [] [] recs so) {E : Env} (hE : E.Fair) (hF : ∀ k, E.findFault k = false) {sc : Scan}
    (hk : ∀ l ∈ sc.asked, ∀ n, D.look s.ctx.st l.encode = some n → n / shardWidth ∈ s.idx.opened)
    {o : Offered} (ho : o ∈ recs.flatMap Rec.offered) (hok : o.ok = true) (hm : o.Matches sc) {v : Bytes} (hv : v ∈ E.views sc)
    (hiv : o.InView v) {cols : Bm} (hc : compileFilters D s.ctx.st E sc = some cols) :
    cols ≠ [] ∧ o.sample.id ∈ (s.idx.rows (E.views sc) (E.colOrder (Sh.groupCols cols))).getD [] := by
  obtain ⟨b, h1, -, h3⟩ := compileFilters_spec (D := D) (st := s.ctx.st) hF sc
  rw [hc] at h1; cases h1
  obtain ⟨c, hcm, hoc⟩ := List.mem_flatMap.1 ho
  have hlook : ∀ l ∈ sc.asked, ∃ n, D.look s.ctx.st l.encode = some n ∧ o.HasCol D s.ctx.st n := fun l hl => by
    obtain ⟨l', hl', he⟩ := hm.2 l hl
    obtain ⟨n, hn⟩ := h.known hcm hoc hl'
    exact ⟨n, he ▸ hn, l', hl', hn⟩
  have hst : ∀ n ∈ cols, Sh.Stored so v o.sample.id n := fun n hn => by
    obtain ⟨l, hl, hln⟩ := ((h3 n).1 hn).2
    obtain ⟨n', hn', hh⟩ := hlook l hl
    rw [hln] at hn'; cases hn'
    exact h.stored_complete hcm hoc hok hiv hh
  have hne : cols ≠ [] := by
    obtain ⟨l, hl⟩ := List.exists_mem_of_ne_nil _ hm.1
    obtain ⟨n, hn, -⟩ := hlook l hl
    exact List.ne_nil_of_mem ((h3 n).2 ⟨fun l hl => (hlook l hl).imp fun _ h => h.1, l, hl, hn⟩)
  refine ⟨hne, ?_⟩
  rw [h.idx']
  refine Sh.C21_finds_all so _ cols _ (hE.cols _) hne (fun n hn => ?_) _ fun n hn => ⟨v, hv, fun m hm _ => hst m hm⟩
  obtain ⟨l, hl, hln⟩ := ((h3 n).1 hn).2
  rw [← Sh.mem_opened_run, ← h.idx']
  exact hk l hl n hln

theorem ids_ok (s : Store σ) (views : List Bytes) (m : AMap Nat (List Nat)) : Bm.Ok ((s.idx.rows views m).getD []) :=
  Sh.rowsLoop_ok _ _ Bm.nil_ok

theorem increasing_filter {os : List Offered} (hi : Increasing os) (p : Offered → Bool) :
    Bm.Ok ((os.filter p).map (·.sample.id)) := by
  unfold Bm.Ok
  rw [List.pairwise_map]
  exact List.Pairwise.filter _ hi

theorem mem_matching {os : List Offered} {E : Env} {sc : Scan} {o : Offered} :
    o ∈ matching os E sc ↔ o ∈ os ∧ o.Matches sc ∧ ∃ v ∈ E.views sc, o.InView v := by
  unfold matching; simp

/-- When all flushes succeeded, the lookup finds exactly the matching samples. -/
theorem Hist.found_exact (h : Hist D s [] [] recs so) (hI : D.Injective) (hi : Increasing (recs.flatMap Rec.offered)) {E : Env}
    (hE : E.Fair) (hF : ∀ k, E.findFault k = false) {sc : Scan} {k : Nat}
    (hk : ∀ l ∈ sc.asked, ∀ n, D.look s.ctx.st l.encode = some n → n / shardWidth = k) (hopen : k ∈ s.idx.opened ∨ recs.flatMap Rec.offered = [])
    (hok : ∀ o ∈ recs.flatMap Rec.offered, o.ok = true) {cols : Bm} (hc : compileFilters D s.ctx.st E sc = some cols) :
    (s.idx.rows (E.views sc) (E.colOrder (Sh.groupCols cols))).getD [] =
      (matching (recs.flatMap Rec.offered) E sc).map (·.sample.id) := by
  refine Bm.ext (ids_ok _ _ _) (increasing_filter hi _) fun u => ?_
  rw [List.mem_map]
  constructor
  · intro hu
    obtain ⟨c, hcm, -, o, ho, hid, hm, hv⟩ := h.found_sound hI hi hE hF hk hc hu
    exact ⟨o, mem_matching.2 ⟨List.mem_flatMap.2 ⟨c, hcm, ho⟩, hm, hv⟩, hid⟩
  · rintro ⟨o, ho, rfl⟩
    obtain ⟨h1, h2, v, hv, hiv⟩ := mem_matching.1 ho
    have hopen : k ∈ s.idx.opened := by
      rcases hopen with h | h
      · exact h
      · rw [h] at h1; simp at h1
    exact (h.found_complete hE hF (fun l hl n hn => by rw [hk l hl n hn]; exact hopen) h1 (hok o h1) h2 hv hiv hc).2

/-! ### Reading the payloads -/

theorem set_ok_add {r : Df.VRec} {x : Sample} {k : Int} (h : ∀ k, (r.set k).Ok) : ((Df.setSample r x).set k).Ok := by
  have h1 : ¬ Res.traces = Res.metrics := by decide
  have h2 : ¬ Res.logs = Res.metrics := by decide
  have h3 : ¬ Res.logs = Res.traces := by decide
  have a := h Res.metrics; have b := h Res.traces; have c := h Res.logs
  simp only [Df.VRec.set, if_true, h1, h2, h3, if_false] at a b c
  have := fun (b : Bm) (h : b.Ok) => Bm.add_ok h x.id
  unfold Df.setSample Df.VRec.set
  cases x.data <;> simp only <;> repeat' split
  all_goals first | exact Bm.nil_ok | assumption | exact this _ (by assumption)

theorem set_ok_foldl (ss : List Sample) (a : Df.AppendState) (h : ∀ k, (a.recd.set k).Ok) :
    ∀ k, ((ss.foldl Df.appendOne a).recd.set k).Ok := by
  induction ss generalizing a with
  | nil => exact h
  | cons x xs ih =>
    rw [List.foldl_cons]
    apply ih
    intro k
    exact set_ok_add (k := k) h

theorem set_ok_build {bs : List (List Sample)} {r : Df.VRec} (h : Df.build bs = some r) (k : Int) : (r.set k).Ok := by
  induction bs using List.reverseRecOn generalizing r k with
  | nil => cases h
  | append_singleton bs b ih =>
    unfold Df.build at h ih
    rw [List.foldl_append, List.foldl_cons, List.foldl_nil, Option.some.injEq] at h
    rw [← h]
    apply set_ok_foldl
    intro k
    cases hb : List.foldl (fun o b => some (b.foldl Df.appendOne (Df.startState o)).recd) none bs with
    | none => 
      simp only [Df.startState, Df.VRec.set]
      repeat' split
      all_goals exact Bm.nil_ok
    | some r' => exact ih hb k

theorem readRows_map {kind : Int} {rows : List Data} (L : List Offered)
    (h : ∀ o ∈ L, rows[o.sample.id]? = some o.sample.data ∧ o.sample.data.signal = some kind) :
    Df.readRows kind rows (L.map (·.sample.id)) = .ok (L.map fun o => (o.sample.id, o.sample.data)) := by
  induction L with
  | nil => rfl
  | cons o L ih =>
    rw [List.map_cons, Df.readRows, (h o List.mem_cons_self).1, ih fun x hx => h x (List.mem_cons_of_mem _ hx)]
    simp only [Df.project_eq (h o List.mem_cons_self).2, List.map_cons]

open Classical in
/-- Reading one aligned view. -/
theorem Hist.readView_exact (h : Hist D s [] [] recs so) (hi : Increasing (recs.flatMap Rec.offered))
    (hok : ∀ o ∈ recs.flatMap Rec.offered, o.ok = true) {fault : Bytes → Bool} (hf : ∀ v, fault v = false) {v : Bytes}
    (ha : Aligned (recs.flatMap Rec.offered) v) (kind : Int) (W : List Offered) (hW : W.Sublist (recs.flatMap Rec.offered)) :
    Df.readView s.frame fault kind (W.map (·.sample.id)) v =
      .ok ((W.filter fun o => decide (o.InView v ∧ o.sample.data.signal = some kind)).map fun o => (o.sample.id, o.sample.data)) := by
  have hb := h.batches_ok hok v
  unfold Df.readView
  rw [hf v, h.frame']
  simp only [Bool.false_eq_true, if_false]
  by_cases hne : Df.batches (recs.map (·.call)) v = []
  · rw [Df.run_view _ h.valid, hne]
    have hnone : (W.filter fun o => decide (o.InView v ∧ o.sample.data.signal = some kind)) = [] := by
      rw [List.filter_eq_nil_iff]
      intro o ho hh
      have hh := (of_decide_eq_true hh).1
      have : norm o.sample ∈ (Df.batches (recs.map (·.call)) v).flatten := by
        rw [hb]; exact List.mem_map.2 ⟨o, List.mem_filter.2 ⟨hW.subset ho, decide_eq_true hh⟩, rfl⟩
      rw [hne] at this; simp at this
    rw [hnone]; rfl
  · obtain ⟨r, hr, hrow, -⟩ := Df.C23_row_is_id_partial _ h.valid v (batches_increasing hi v) (h.shift_zero hi ha) hne
    rw [hr]
    have hbuild := hr
    rw [Df.run_view _ h.valid] at hbuild
    have hset : (r.set kind).and (W.map (·.sample.id)) =
        (W.filter fun o => decide (o.InView v ∧ o.sample.data.signal = some kind)).map (·.sample.id) := by
      refine Bm.ext (Bm.and_ok (set_ok_build hbuild kind)) (increasing_filter (List.Pairwise.sublist hW hi) _) fun i => ?_
      rw [Bm.mem_and, Df.mem_set_build _ kind i r hbuild, List.mem_map, List.mem_map]
      constructor
      · rintro ⟨⟨x, hx, rfl, hk⟩, o, ho, hid⟩
        rw [hb] at hx
        obtain ⟨o', ho', rfl⟩ := List.mem_map.1 hx
        obtain ⟨ho1, ho2⟩ := List.mem_filter.1 ho'
        have : o = o' := unique hi (hW.subset ho) ho1 hid
        subst this
        exact ⟨o, List.mem_filter.2 ⟨ho, decide_eq_true ⟨of_decide_eq_true ho2, hk⟩⟩, rfl⟩
      · rintro ⟨o, ho, rfl⟩
        obtain ⟨ho1, ho2⟩ := List.mem_filter.1 ho
        obtain ⟨hv, hk⟩ := of_decide_eq_true ho2
        refine ⟨⟨norm o.sample, ?_, rfl, hk⟩, o, ho1, rfl⟩
        rw [hb]
        exact List.mem_map.2 ⟨o, List.mem_filter.2 ⟨hW.subset ho1, decide_eq_true hv⟩, rfl⟩
    simp only
    rw [hset]
    split
    · rename_i he
      rw [List.map_eq_nil_iff] at he
      rw [he]; rfl
    · refine readRows_map _ fun o ho => ?_
      obtain ⟨ho1, ho2⟩ := List.mem_filter.1 ho
      obtain ⟨hv, hk⟩ := of_decide_eq_true ho2
      refine ⟨hrow (norm o.sample) ?_, hk⟩
      rw [hb]
      exact List.mem_map.2 ⟨o, List.mem_filter.2 ⟨hW.subset ho1, decide_eq_true hv⟩, rfl⟩

open Classical in
theorem Hist.unmarshal_exact (h : Hist D s [] [] recs so) (hi : Increasing (recs.flatMap Rec.offered))
    (hok : ∀ o ∈ recs.flatMap Rec.offered, o.ok = true) {fault : Bytes → Bool} (hf : ∀ v, fault v = false) (views : List Bytes)
    (ha : ∀ v ∈ views, Aligned (recs.flatMap Rec.offered) v) (kind : Int) (W : List Offered) (hW : W.Sublist (recs.flatMap Rec.offered)) :
    ∃ l, Df.unmarshal s.frame fault kind (W.map (·.sample.id)) views = .ok l ∧ l.map (·.2) = payloads W kind views := by
  induction views with
  | nil => exact ⟨[], rfl, rfl⟩
  | cons v vs ih =>
    obtain ⟨l, h1, h2⟩ := ih fun x hx => ha x (List.mem_cons_of_mem _ hx)
    have h3 := h.readView_exact hi hok hf (ha v List.mem_cons_self) kind W hW
    refine ⟨(W.filter fun o => decide (o.InView v ∧ o.sample.data.signal = some kind)).map (fun o => (o.sample.id, o.sample.data)) ++ l,
      ?_, ?_⟩
    · rw [Df.unmarshal, h3, h1]
    · rw [List.map_append, List.map_map, h2]
      unfold payloads
      rw [List.flatMap_cons]
      rfl

theorem picked_sublist (sc : Scan) (os : List Offered) : (picked sc os).Sublist os := by
  unfold picked
  split
  · exact List.Sublist.refl _
  · cases h : os.getLast? with
    | none => simp
    | some x => simpa using List.mem_of_getLast? h

theorem chosen_map (sc : Scan) (os : List Offered) :
    chosen sc (os.map (·.sample.id)) = (picked sc os).map (·.sample.id) := by
  unfold chosen picked
  cases sc.time.range with
  | some _ => rfl
  | none =>
    simp only
    rw [List.getLast?_map]
    cases os.getLast? <;> rfl

/-- What a scan returns, when all flushes succeeded, nothing fails, all columns are in one shard that is open, and the views start
with sample 0. -/
theorem Hist.scan_exact (h : Hist D s [] [] recs so) (hI : D.Injective) (hi : Increasing (recs.flatMap Rec.offered)) {E : Env}
    (hE : E.Fair) (hF : E.NoFaults) {sc : Scan} {k : Nat}
    (hscope : sc.scope = Res.metrics ∨ sc.scope = Res.logs ∨ sc.scope = Res.traces)
    (hk : ∀ l ∈ sc.asked, ∀ n, D.look s.ctx.st l.encode = some n → n / shardWidth = k)
    (hopen : k ∈ s.idx.opened ∨ recs.flatMap Rec.offered = [])
    (hok : ∀ o ∈ recs.flatMap Rec.offered, o.ok = true) (ha : ∀ v ∈ E.views sc, Aligned (recs.flatMap Rec.offered) v) :
    scan D s E sc =
      if matching (recs.flatMap Rec.offered) E sc = [] then .data (Dt.zero sc.scope)
      else merged E (payloads (picked sc (matching (recs.flatMap Rec.offered) E sc)) sc.scope (E.views sc)) := by
  obtain ⟨cols, hc, -, h3⟩ := compileFilters_spec (D := D) (st := s.ctx.st) hF.find sc
  have hex := h.found_exact hI hi hE hF.find hk hopen hok hc
  unfold scan
  rw [hc]
  simp only
  by_cases hcn : cols = []
  · rw [if_pos hcn, if_pos]
    rw [hcn] at hex
    have h0 : (s.idx.rows (E.views sc) (E.colOrder (Sh.groupCols []))).getD [] = [] := by
      rw [h.idx', List.eq_nil_iff_forall_not_mem]
      intro u hu
      rw [Sh.C21_lookup_exact so _ [] _ (hE.cols _)] at hu
      obtain ⟨-, ⟨c, hc, -⟩, -⟩ := hu
      simp at hc
    rw [h0] at hex
    exact List.map_eq_nil_iff.1 hex.symm
  · rw [if_neg hcn, hF.rows]
    simp only [Bool.false_eq_true, if_false]
    generalize hm : matching (recs.flatMap Rec.offered) E sc = M at hex ⊢
    have hMs : M.Sublist (recs.flatMap Rec.offered) := by rw [← hm]; exact List.filter_sublist
    cases hr : s.idx.rows (E.views sc) (E.colOrder (Sh.groupCols cols)) with
    | none =>
      rw [hr, Option.getD_none, eq_comm, List.map_eq_nil_iff] at hex
      rw [hex]; rfl
    | some ids =>
      rw [hr, Option.getD_some] at hex
      simp only
      by_cases hn : M = []
      · rw [if_pos hn, if_pos (by rw [hex, hn]; rfl)]
      · rw [if_neg hn, if_neg (by rw [hex, List.map_eq_nil_iff]; exact hn), hex, chosen_map]
        unfold readSamples
        rw [if_pos hscope]
        obtain ⟨l, h1, h2⟩ := h.unmarshal_exact hi hok hF.frame (E.views sc) ha sc.scope (picked sc M)
          ((picked_sublist sc M).trans hMs)
        rw [h1]
        simp only
        rw [h2]
        rfl

end hist
end Verif.St
