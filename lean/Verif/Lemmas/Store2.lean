import Verif.Lemmas.Store
import Verif.Props.Shards
import Verif.Props.Frame
/-!
# The index and the data frame after any history
-/
namespace Verif.St
open Tm Tf
open Bt (Frags Entry shardWidth pos Owed Good makeFragments)
variable {σ : Type} {D : Dict σ} {st : σ} {c : Rec}

theorem Rec.mem_sample {o : Offered} (ho : o ∈ c.offered) : o.sample ∈ c.fl.samples := by
  rw [← tag_samples c.ok c.r c.fl.samples]; exact List.mem_map.2 ⟨o, ho, rfl⟩

theorem Rec.ss_eq (c : Rec) : c.ss = c.offered.map fun o => norm o.sample := by
  unfold Rec.ss Rec.offered
  conv_lhs => rw [← tag_samples c.ok c.r c.fl.samples]
  rw [List.map_map]; rfl

theorem Rec.Ok.small (h : c.Ok D st) {o : Offered} (ho : o ∈ c.offered) :
    startOf o.sample.data < 2 ^ 64 ∧ o.sample.id < 2 ^ 44 :=
  ⟨startOf_lt (h.fair.times _ (Rec.mem_sample ho)), h.fair.ids _ (Rec.mem_sample ho)⟩

theorem Rec.Ok.times (h : c.Ok D st) : ∀ x ∈ c.ss, x.minTs < 2 ^ 64 := by
  rw [Rec.ss_eq]
  intro x hx
  obtain ⟨o, ho, rfl⟩ := List.mem_map.1 hx
  exact (h.small ho).1

theorem Rec.Ok.valid (h : c.Ok D st) : c.call.Valid := ⟨h.times, c.m, h.group, h.fair.views _⟩

open Classical in
theorem Rec.Ok.committed (h : c.Ok D st) (hf : c.framed = true) {o : Offered} (ho : o ∈ c.offered) {v : Bytes} (hv : o.InView v) :
    c.call.Committed v := by
  obtain ⟨m, hm, hok, hg⟩ := Df.groupViews_spec c.ss h.times [] (by simp [AMap.Ok])
  rw [h.group] at hm; cases hm
  have hx : norm o.sample ∈ c.ss.filter fun s => decide (IsView (toInt64 s.minTs) v) := by
    rw [List.mem_filter, Rec.ss_eq]
    exact ⟨List.mem_map.2 ⟨o, ho, rfl⟩, decide_eq_true hv⟩
  have hne : (c.ss.filter fun s => decide (IsView (toInt64 s.minTs) v)) ≠ [] := fun e => by rw [e] at hx; simp at hx
  have hk : v ∈ c.m.map (·.1) := by rw [AMap.mem_keys, hg, if_neg hne]; rfl
  unfold Df.Call.Committed Rec.call
  have hl : (c.fl.viewOrder c.m).length ≤ c.fl.commits := by
    rw [(h.fair.views c.m).length_eq]; exact of_decide_eq_true hf
  simp only
  rw [List.take_of_length_le hl]
  exact ((h.fair.views c.m).map (·.1)).mem_iff.2 hk

theorem Rec.Ok.fok (h : c.Ok D st) : FOk c.f := by
  rw [h.frags]; exact FOk.makeFragments ⟨by simp [AMap.Ok], by simp⟩

theorem Rec.Ok.bits (h : c.Ok D st) (k : Nat) (v : Bytes) (p : Nat) :
    (∃ vs b, (k, vs) ∈ c.f ∧ (v, b) ∈ vs ∧ p ∈ b) ↔ ∃ e ∈ c.es, Owed e k v p := by
  rw [← h.fok.mem_bits, h.frags, (Bt.makeFragments_good (f := []) h.good).2]
  simp [Frags.bits, AMap.get]

theorem Rec.Ok.writes (h : c.Ok D st) {op : Sh.Op} (ho : op ∈ c.sops) {v : Bytes} {p k : Nat} (hw : op.Writes v p k) :
    c.framed = true ∧ ∃ e ∈ c.es, Owed e k v p := by
  unfold Rec.sops at ho
  split at ho
  · rename_i hf
    refine ⟨hf, (h.bits k v p).1 ?_⟩
    obtain ⟨⟨k', vs⟩, he, ok, rfl⟩ := mem_idxOps ho
    cases ok with
    | false => exact hw.elim
    | true =>
      obtain ⟨rfl, b, hb, hp⟩ := hw
      exact ⟨vs, b, (h.fair.shards _).mem_iff.1 he, (h.fair.bits _).mem_iff.1 hb, hp⟩
  · simp at ho

theorem Rec.Ok.writes_all (h : c.Ok D st) (hok : c.ok = true) {v : Bytes} {p k : Nat} (ho : ∃ e ∈ c.es, Owed e k v p) :
    ∃ op ∈ c.sops, op.Writes v p k := by
  obtain ⟨vs, b, h1, h2, h3⟩ := (h.bits k v p).2 ho
  unfold Rec.ok at hok
  rw [Bool.and_eq_true] at hok
  unfold Rec.sops
  rw [if_pos hok.1]
  refine ⟨_, idxOps_complete (bo := c.fl.bitsOrder) (f := c.fl.shardOrder c.f) (e := (k, vs)) ?_ ((h.fair.shards _).mem_iff.2 h1),
    rfl, b, (h.fair.bits _).mem_iff.2 h2, h3⟩
  rw [(h.fair.shards _).length_eq]; exact of_decide_eq_true hok.2

/-- The sample has label number `n`. -/
def Offered.HasCol (D : Dict σ) (st : σ) (o : Offered) (n : Nat) : Prop :=
  ∃ l, (Carries o.sample.data l ∨ l = { resource := o.res }) ∧ D.look st l.encode = some n

theorem owed_iff {o : Offered} {e : Entry} (he : EntryOf D st o.res o.sample (norm o.sample) e)
    (ht : startOf o.sample.data < 2 ^ 64) (hid : o.sample.id < 2 ^ 44) (v : Bytes) (u n : Nat) :
    Owed e (n / shardWidth) v (u * shardWidth + n % shardWidth) ↔ o.sample.id = u ∧ o.InView v ∧ o.HasCol D st n := by
  obtain ⟨ps, h1, -, h3⟩ := he.labels
  obtain ⟨vs, hv, hvs, -⟩ := Df.sampleViews_spec ht
  have hq : viewsOf e.q quantumYMDH = some vs := by rw [he.q]; exact hv
  unfold Owed
  constructor
  · rintro ⟨ls, vs', hl, hv', col, hc, hvv, hsh, hp⟩
    rw [h1] at hl; cases hl
    rw [hq] at hv'; cases hv'
    rw [he.id, Bt.pos_small hid] at hp
    have hs : shardWidth = 1048576 := rfl
    have e1 : o.sample.id = u := by rw [hs] at hp; omega
    have e2 : col = n := by rw [hs] at hp hsh; omega
    rw [e2] at hc
    exact ⟨e1, (hvs v).1 hvv, (h3 n).1 hc⟩
  · rintro ⟨rfl, hvv, hn⟩
    exact ⟨ps, vs, h1, hq, n, (h3 n).2 hn, (hvs v).2 hvv, rfl, by rw [he.id, Bt.pos_small hid]⟩

section hist
variable {s : Store σ} {recs : List Rec} {so : List Sh.Op}

/-- Everything in the index belongs to a sample whose payload was written before. -/
theorem Hist.stored_sound (h : Hist D s [] [] recs so) {v : Bytes} {u n : Nat} (hs : Sh.Stored so v u n) :
    ∃ c ∈ recs, c.framed = true ∧ ∃ o ∈ c.offered, o.sample.id = u ∧ o.InView v ∧ o.HasCol D s.ctx.st n := by
  obtain ⟨op, ho, hw⟩ := hs
  rcases h.wr op ho with rfl | ⟨c, hc, hop⟩
  · exact hw.elim
  · have hok := h.oks c hc
    obtain ⟨hf, e, he, how⟩ := hok.writes hop hw
    obtain ⟨o, hoo, hx⟩ := (Processed.entry c.ok hok.proc).1 e he
    obtain ⟨s1, s2⟩ := hok.small hoo
    exact ⟨c, hc, hf, o, hoo, (owed_iff hx s1 s2 v u n).1 how⟩

/-- A flush that succeeded put all of it into the index. -/
theorem Hist.stored_complete (h : Hist D s [] [] recs so) (hc : c ∈ recs) {o : Offered} (ho : o ∈ c.offered) (hok : o.ok = true)
    {v : Bytes} (hv : o.InView v) {n : Nat} (hn : o.HasCol D s.ctx.st n) : Sh.Stored so v o.sample.id n := by
  have hcok := h.oks c hc
  obtain ⟨e, he, hx⟩ := (Processed.entry c.ok hcok.proc).2 o ho
  obtain ⟨s1, s2⟩ := hcok.small ho
  rw [tag_ok c.ok c.r c.fl.samples o ho] at hok
  obtain ⟨op, h1, h2⟩ := hcok.writes_all hok ⟨e, he, (owed_iff hx s1 s2 v _ n).2 ⟨rfl, hv, hn⟩⟩
  exact ⟨op, h.all c hc op h1, h2⟩

theorem Hist.known (h : Hist D s [] [] recs so) (hc : c ∈ recs) {o : Offered} (ho : o ∈ c.offered) {l : Label}
    (hl : Carries o.sample.data l ∨ l = { resource := o.res }) : ∃ n, D.look s.ctx.st l.encode = some n := by
  obtain ⟨e, he, hx⟩ := (Processed.entry c.ok (h.oks c hc).proc).2 o ho
  exact hx.known l hl

theorem Hist.valid (h : Hist D s [] [] recs so) : ∀ c ∈ recs.map (·.call), c.Valid := by
  intro x hx
  obtain ⟨c, hc, rfl⟩ := List.mem_map.1 hx
  exact (h.oks c hc).valid

theorem Hist.frame' (h : Hist D s [] [] recs so) : s.frame = Df.run (recs.map (·.call)) := by simpa using h.frame

theorem Hist.idx' (h : Hist D s [] [] recs so) : s.idx = Sh.run so := by simpa using h.idx

theorem mem_inView {x : Sample} {v : Bytes} : x ∈ c.call.inView v ↔ ∃ o ∈ c.offered, o.InView v ∧ x = norm o.sample := by
  unfold Df.Call.inView
  simp only [List.mem_filter, decide_eq_true_eq, Rec.call, Rec.ss_eq, List.mem_map]
  constructor
  · rintro ⟨⟨o, ho, rfl⟩, hv⟩; exact ⟨o, ho, hv, rfl⟩
  · rintro ⟨o, ho, hv, rfl⟩; exact ⟨⟨o, ho, rfl⟩, hv⟩

theorem Hist.framed_batch (h : Hist D s [] [] recs so) (hc : c ∈ recs) (hf : c.framed = true) {o : Offered} (ho : o ∈ c.offered)
    {v : Bytes} (hv : o.InView v) : norm o.sample ∈ (Df.batches (recs.map (·.call)) v).flatten := by
  rw [List.mem_flatten]
  refine ⟨c.call.inView v, ?_, mem_inView.2 ⟨o, ho, hv, rfl⟩⟩
  unfold Df.batches
  refine List.mem_map.2 ⟨c.call, List.mem_filter.2 ⟨List.mem_map.2 ⟨c, hc, rfl⟩, decide_eq_true ((h.oks c hc).committed hf ho hv)⟩, rfl⟩

theorem mem_batches {x : Sample} {v : Bytes} (hx : x ∈ (Df.batches (recs.map (·.call)) v).flatten) :
    ∃ c ∈ recs, ∃ o ∈ c.offered, o.InView v ∧ x = norm o.sample := by
  rw [List.mem_flatten] at hx
  obtain ⟨b, hb, hx⟩ := hx
  obtain ⟨y, hy, rfl⟩ := List.mem_map.1 hb
  obtain ⟨c, hc, rfl⟩ := List.mem_map.1 (List.mem_filter.1 hy).1
  obtain ⟨o, ho, hv, e⟩ := mem_inView.1 hx
  exact ⟨c, hc, o, ho, hv, e⟩

theorem batches_sublist (recs : List Rec) (v : Bytes) :
    ((Df.batches (recs.map (·.call)) v).flatten).Sublist ((recs.flatMap Rec.offered).map fun o => norm o.sample) := by
  induction recs with
  | nil => simp [Df.batches]
  | cons c recs ih =>
    have hi : (c.call.inView v).Sublist (c.offered.map fun o => norm o.sample) := by
      rw [← Rec.ss_eq]; exact List.filter_sublist
    unfold Df.batches at ih ⊢
    rw [List.flatMap_cons, List.map_append, List.map_cons, List.filter_cons]
    split
    · rw [List.map_cons, List.flatten_cons]; exact hi.append ih
    · exact ih.trans (List.sublist_append_right _ _)

theorem batches_increasing (hi : Increasing (recs.flatMap Rec.offered)) (v : Bytes) :
    Df.Increasing (Df.batches (recs.map (·.call)) v) := by
  unfold Df.Increasing
  refine List.Pairwise.sublist (batches_sublist recs v) ?_
  rw [List.pairwise_map]
  exact hi

open Classical in
theorem Hist.batches_ok (h : Hist D s [] [] recs so) (hok : ∀ o ∈ recs.flatMap Rec.offered, o.ok = true) (v : Bytes) :
    (Df.batches (recs.map (·.call)) v).flatten =
      ((recs.flatMap Rec.offered).filter fun o => decide (o.InView v)).map fun o => norm o.sample := by
  have hc := h.oks
  clear h
  induction recs with
  | nil => simp [Df.batches]
  | cons c recs ih =>
    have hi : c.call.inView v = (c.offered.filter fun o => decide (o.InView v)).map fun o => norm o.sample := by
      unfold Df.Call.inView
      simp only [Rec.call]
      rw [Rec.ss_eq, List.filter_map]
      congr 1
    have ih := ih (fun o ho => hok o (by rw [List.flatMap_cons]; exact List.mem_append_right _ ho))
      (fun x hx => hc x (List.mem_cons_of_mem _ hx))
    unfold Df.batches at ih ⊢
    rw [List.flatMap_cons, List.filter_append, List.map_append, List.map_cons, List.filter_cons, ← hi]
    split
    · rw [List.map_cons, List.flatten_cons, ih]
    · rename_i hn
      have : c.call.inView v = [] := by
        rw [List.eq_nil_iff_forall_not_mem]
        intro x hx
        obtain ⟨o, ho, hv, -⟩ := mem_inView.1 hx
        have hcok : c.ok = true := by
          have := hok o (by rw [List.flatMap_cons]; exact List.mem_append_left _ ho)
          rwa [tag_ok c.ok c.r c.fl.samples o ho] at this
        unfold Rec.ok at hcok
        rw [Bool.and_eq_true] at hcok
        exact hn (decide_eq_true ((hc c List.mem_cons_self).committed hcok.1 ho hv))
      rw [this, ih]; rfl

theorem Hist.shift_zero (h : Hist D s [] [] recs so) (hi : Increasing (recs.flatMap Rec.offered)) {v : Bytes}
    (ha : Aligned (recs.flatMap Rec.offered) v) : Df.shift (Df.batches (recs.map (·.call)) v) = 0 := by
  rcases ha with ⟨o, ho, hok, h0, hv⟩ | hn
  · obtain ⟨c, hc, ho⟩ := List.mem_flatMap.1 ho
    rw [tag_ok c.ok c.r c.fl.samples o ho] at hok
    unfold Rec.ok at hok
    rw [Bool.and_eq_true] at hok
    have hm := h.framed_batch hc hok.1 ho hv
    have hne := fun b => Df.batches_ne_nil (cs := recs.map (·.call)) h.valid (v := v) (b := b)
    have hinc := batches_increasing hi v
    generalize Df.batches (recs.map (·.call)) v = bs at *
    cases bs with
    | nil => rfl
    | cons b0 rest =>
      cases b0 with
      | nil => exact absurd rfl (hne [] List.mem_cons_self)
      | cons x xs =>
        unfold Df.shift
        simp only
        rw [if_pos]
        unfold Df.Increasing at hinc
        rw [List.flatten_cons, List.cons_append, List.pairwise_cons] at hinc
        rw [List.flatten_cons, List.cons_append] at hm
        rcases List.mem_cons.1 hm with e | hm
        · rw [← e]; exact h0
        · have := hinc.1 _ hm
          have e : (norm o.sample).id = o.sample.id := rfl
          omega
  · have : Df.batches (recs.map (·.call)) v = [] := by
      rw [List.eq_nil_iff_forall_not_mem]
      intro b hb
      obtain ⟨x, hx⟩ := List.exists_mem_of_ne_nil _ (Df.batches_ne_nil h.valid hb)
      obtain ⟨c, hc, o, ho, hv, -⟩ := mem_batches (List.mem_flatten.2 ⟨b, hb, hx⟩)
      exact hn o (List.mem_flatMap.2 ⟨c, hc, ho⟩) hv
    rw [this]; rfl

end hist

/-- The history of a new store. -/
theorem hist_run (hD : D.Lawful) (hg : D.Good st) (ops : List (Op σ))
    (hv : Valid D (Store.start st (fun _ => none) []) ops) :
    ∃ recs so, Hist D (run D st ops) [] [] recs so ∧ samplesOf D st ops = recs.flatMap Rec.offered ∧
      ((∀ op ∈ ops, ∀ st, op ≠ .restart st) → Sh.Op.restart ∉ so) := by
  obtain ⟨recs, so, h1, h2, -, -, h3⟩ := hist hD ops (Store.start st (fun _ => none) []) [] [] hg rfl rfl rfl hv
  exact ⟨recs, so, h1, h2, h3⟩

end Verif.St
