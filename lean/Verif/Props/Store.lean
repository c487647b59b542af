import Verif.Lemmas.Store3
import Verif.Props.Transform
import Verif.Props.Collapse
/-!
# C25–C32: flushing and scanning

`ops` is any history of flushes and restarts of a store that starts empty, with any crash point inside of each flush (`commits`) and
any map iteration orders; `D` is any dictionary from labels to numbers that answers consistently.
-/
namespace Verif.St
open Tm Tf
open Bt (shardWidth)
variable {σ : Type} (D : Dict σ) (st : σ)

/-- The state a history starts from. -/
abbrev fresh (st : σ) : Store σ := Store.start st (fun _ => none) []

/-- The start time a payload is filed under: the earliest start of its records when all are positive; always the start of one
of its records, 0 when it has none. -/
theorem startOf_spec (d : Data) :
    ((∀ a b, HasTime d a b → 0 < a) → ∀ a b, HasTime d a b → startOf d ≤ a) ∧
    ((∃ b, HasTime d (startOf d) b) ∨ ((∀ a b, ¬ HasTime d a b) ∧ startOf d = 0)) := by
  refine ⟨fun hpos a b hab => ?_, ?_⟩
  · exact (bounds_min_le (dataTimes d) 0 0 fun a b h => hpos a b (mem_dataTimes.1 h)).2 a b (mem_dataTimes.2 hab)
  · by_cases hne : dataTimes d = []
    · right
      refine ⟨fun a b hab => ?_, by simp [startOf, hne, bounds]⟩
      have := mem_dataTimes.2 hab
      rw [hne] at this; simp at this
    · left
      obtain ⟨b, hb⟩ := bounds_min_mem' (dataTimes d) hne 0
      exact ⟨b, mem_dataTimes.1 hb⟩

/-! ## C25: crash consistency -/

/-- **C25.** After any history, wherever its flushes were cut off: whatever the index holds in a view (a bit of row `p / 2^20`)
belongs to a sample filed under that view, whose id is in the id set of its signal and whose payload is in the view's table (at
its own row or, C23, one row below). -/
theorem C25_no_dangling_index (hD : D.Lawful) (hg : D.Good st) (ops : List (Op σ)) (hv : Valid D (fresh st) ops)
    (hi : Increasing (samplesOf D st ops)) (shard : Nat) (v : Bytes) (p : Nat) (hp : p ∈ (run D st ops).idx.disk.bits shard v) :
    ∃ o ∈ samplesOf D st ops, o.sample.id = p / shardWidth ∧ o.InView v ∧
      ∃ r, (run D st ops).frame v = some r ∧
        (∃ i, (i = o.sample.id ∨ i + 1 = o.sample.id) ∧ r.rows[i]? = some o.sample.data) ∧
        ∀ kind, o.sample.data.signal = some kind → o.sample.id ∈ r.set kind := by
  obtain ⟨recs, so, h, hos, -⟩ := hist_run hD hg ops hv
  rw [hos] at hi ⊢
  rw [h.idx', Sh.mem_disk_run] at hp
  have hw : shardWidth = 1048576 := rfl
  have hst : Sh.Stored so v (p / shardWidth) (shard * shardWidth + p % shardWidth) := by
    obtain ⟨op, h1, h2⟩ := hp
    refine ⟨op, h1, ?_⟩
    have e1 : p / shardWidth * shardWidth + (shard * shardWidth + p % shardWidth) % shardWidth = p := by rw [hw]; omega
    have e2 : (shard * shardWidth + p % shardWidth) / shardWidth = shard := by rw [hw]; omega
    rw [e1, e2]; exact h2
  obtain ⟨c, hc, hf, o, ho, hid, hiv, -⟩ := h.stored_sound hst
  refine ⟨o, List.mem_flatMap.2 ⟨c, hc, ho⟩, hid, hiv, ?_⟩
  have hm := h.framed_batch hc hf ho hiv
  cases hb : Df.batches (recs.map (·.call)) v with
  | nil => rw [hb] at hm; simp at hm
  | cons b0 rest =>
    obtain ⟨r, hr, h0, h1, -, -⟩ := Df.C23_layout_exact _ h.valid v b0 rest hb (batches_increasing hi v)
    rw [← h.frame'] at hr
    refine ⟨r, hr, ?_, fun kind hk => ?_⟩
    · rw [hb, List.flatten_cons] at hm
      have hs := Df.shift_le [b0]
      rcases List.mem_append.1 hm with hm | hm
      · obtain ⟨h2, h3⟩ := h0 _ hm
        have e : (norm o.sample).id = o.sample.id := rfl
        exact ⟨_, by omega, h3⟩
      · exact ⟨(norm o.sample).id, .inl rfl, h1 _ hm⟩
    · rw [h.frame', Df.run_view _ h.valid] at hr
      rw [Df.mem_set_build _ kind _ r hr]
      exact ⟨_, hm, rfl, hk⟩

/-- A log payload with one record. -/
def logAt (ts : Nat) (severity : Bytes) : Data := .logs [{ scopes := [{ items := [{ ts := ts, severity := severity }] }] }]

/-- A flush of log samples with the given ids, start times and severities. -/
def logFlush (xs : List (Nat × Nat × Bytes)) (commits : Nat) : Flush :=
  { samples := xs.map fun x => { id := x.1, data := logAt x.2.1 x.2.2 }, commits := commits }

theorem logFlush_fair {xs : List (Nat × Nat × Bytes)} (n : Nat) (h : ∀ x ∈ xs, x.1 < 2 ^ 44 ∧ x.2.1 < 2 ^ 64) : (logFlush xs n).Fair := by
  refine ⟨fun m => List.Perm.refl _, fun m => List.Perm.refl _, fun m => List.Perm.refl _, ?_, ?_⟩
  · intro s hs a b hab
    obtain ⟨x, hx, rfl⟩ := List.mem_map.1 hs
    simp only [logAt, HasTime, List.mem_singleton, exists_eq_left] at hab
    rw [← hab.2]; exact (h x hx).2
  · intro s hs
    obtain ⟨x, hx, rfl⟩ := List.mem_map.1 hs
    exact (h x hx).1

/-- `std_1970010100`. -/
def hourView : Bytes := [115, 116, 100, 95, 49, 57, 55, 48, 48, 49, 48, 49, 48, 48]

/-- Two samples, the process dies after the data frame was written and before the index was. -/
def crashOps : List (Op (List Bytes)) := [.flush (logFlush [(0, 5, [97]), (1, 7, [98])] 4)]

/-- **C25**: the other half: a payload without any index entry can be left behind. -/
theorem C25_payload_without_index : Valid listDict (fresh []) crashOps ∧
    ((run listDict [] crashOps).frame hourView).isSome ∧ (run listDict [] crashOps).idx.disk = [] := by
  refine ⟨⟨logFlush_fair _ (by decide), by decide +kernel, trivial⟩, by decide +kernel, by decide +kernel⟩

/-- The same flush, complete: the index has 4 bits (two labels for each of two samples) in the hour view. Hypotheses of C25 hold. -/
def fullOps : List (Op (List Bytes)) := [.flush (logFlush [(0, 5, [97]), (1, 7, [98])] 5)]

theorem fullOps_valid : Valid listDict (fresh []) fullOps :=
  ⟨logFlush_fair _ (by decide), by decide +kernel, trivial⟩

theorem fullOps_increasing : Increasing (samplesOf listDict [] fullOps) := by
  unfold Increasing
  rw [← List.pairwise_map (f := fun o : Offered => o.sample.id) (R := (· < ·))]
  decide +kernel

example : ((run listDict [] fullOps).idx.disk.bits 0 hourView) = [0, 1, 1048578, 1048579] := by decide +kernel

/-! ## C26: filters -/

/-- **C26.** Without faults, the filters of a scan compile to the numbers of all labels it asks for, if all of them are known, and
to nothing otherwise. -/
theorem C26_columns_exact (E : Env) (hE : E.NoFaults) (sc : Scan) :
    ∃ b, compileFilters D st E sc = some b ∧ b.Pairwise (· < ·) ∧
      ∀ n, n ∈ b ↔ (∀ l ∈ sc.asked, ∃ m, D.look st l.encode = some m) ∧ ∃ l ∈ sc.asked, D.look st l.encode = some n :=
  compileFilters_spec hE.find sc

/-- **C26.** A scan that asks for a label never seen returns the empty result of its signal, whatever else it asks for. -/
theorem C26_unknown_matches_nothing (s : Store σ) (E : Env) (hE : E.NoFaults) (sc : Scan) (l : Label) (hl : l ∈ sc.asked)
    (hu : D.look s.ctx.st l.encode = none) : scan D s E sc = .data (Dt.zero sc.scope) := by
  obtain ⟨b, h1, -, h3⟩ := compileFilters_spec (D := D) (st := s.ctx.st) hE.find sc
  have : b = [] := by
    rw [List.eq_nil_iff_forall_not_mem]
    intro n hn
    obtain ⟨m, hm⟩ := ((h3 n).1 hn).1 l hl
    rw [hu] at hm; cases hm
  unfold scan
  rw [h1, this]; simp

/-- The samples a scan finds in the index. -/
def found (D : Dict σ) (s : Store σ) (E : Env) (sc : Scan) : Bm :=
  match compileFilters D s.ctx.st E sc with
  | none => []
  | some cols => if cols = [] then [] else (s.idx.rows (E.views sc) (E.colOrder (Sh.groupCols cols))).getD []

/-- **C26**, partial: more filters never find more samples, for any content of the index, when the labels asked for are in one
shard (missing: several shards, where it is false, `C26_widens_refuted`). -/
theorem C26_never_widens_partial (s : Store σ) (so : List Sh.Op) (hs : s.idx = Sh.run so) (E : Env) (hE : E.Fair) (hF : E.NoFaults)
    (sc : Scan) (more : List Filter) (hne : sc.filters.filterMap (·.label sc.scope) ≠ []) (k : Nat)
    (hk : ∀ l ∈ Scan.asked { sc with filters := sc.filters ++ more }, ∀ n, D.look s.ctx.st l.encode = some n → n / shardWidth = k)
    (u : Nat) (hu : u ∈ found D s E { sc with filters := sc.filters ++ more }) : u ∈ found D s E sc := by
  have hn1 : sc.filters ≠ [] := fun e => by rw [e] at hne; simp at hne
  have hn2 : sc.filters ++ more ≠ [] := by simp [hn1]
  obtain ⟨b, h1, -, h3⟩ := compileFilters_spec (D := D) (st := s.ctx.st) hF.find sc
  obtain ⟨b', h1', -, h3'⟩ := compileFilters_spec (D := D) (st := s.ctx.st) hF.find { sc with filters := sc.filters ++ more }
  have ha : Scan.asked { sc with filters := sc.filters ++ more } = sc.asked ++ more.filterMap (·.label sc.scope) := by
    unfold Scan.asked
    rw [if_neg hn1]
    simp only
    rw [if_neg hn2, List.filterMap_append]
  have ha' : sc.asked ≠ [] := by unfold Scan.asked; rw [if_neg hn1]; exact hne
  unfold found at hu ⊢
  rw [h1'] at hu
  rw [h1]
  simp only at hu ⊢
  split at hu
  · simp at hu
  · rename_i hb'
    obtain ⟨n', hn'⟩ := List.exists_mem_of_ne_nil _ hb'
    have hknown := ((h3' n').1 hn').1
    have hsub : ∀ n ∈ b, n ∈ b' := fun n hn => by
      obtain ⟨l, hl, hln⟩ := ((h3 n).1 hn).2
      exact (h3' n).2 ⟨hknown, l, by rw [ha]; exact List.mem_append_left _ hl, hln⟩
    have hbne : b ≠ [] := by
      obtain ⟨l, hl⟩ := List.exists_mem_of_ne_nil _ ha'
      obtain ⟨m, hm⟩ := hknown l (by rw [ha]; exact List.mem_append_left _ hl)
      exact List.ne_nil_of_mem ((h3 m).2 ⟨fun l hl => hknown l (by rw [ha]; exact List.mem_append_left _ hl), l, hl, hm⟩)
    rw [if_neg hbne]
    have hkb' : ∀ n ∈ b', n / shardWidth = k := fun n hn => by
      obtain ⟨l, hl, hln⟩ := ((h3' n).1 hn).2
      exact hk l hl n hln
    have hopen : Sh.Open so k := by
      rw [hs, Sh.C21_lookup_exact so _ b' _ (hE.cols _)] at hu
      have := hu.1 n' hn'
      rwa [hkb' n' hn'] at this
    rw [hs, Sh.C21_single_shard_partial so _ b' _ (hE.cols _) k hb' hkb' hopen] at hu
    rw [hs, Sh.C21_single_shard_partial so _ b _ (hE.cols _) k hbne (fun n hn => hkb' n (hsub n hn)) hopen]
    obtain ⟨v, hv, hall⟩ := hu
    exact ⟨v, hv, fun n hn => hall n (hsub n hn)⟩

/-- A dictionary with a fixed table. -/
def tableDict : Dict (List (Bytes × Nat)) where
  tr := fun st k => (AMap.get st k).map fun n => (st, n)
  look := fun st k => AMap.get st k
  keyOf := fun st n => (st.find? fun e => e.2 == n).map (·.1)
  Good := fun _ => True

/-- The environment of the examples: every scan reads the hour view of the epoch. -/
def toyEnv : Env := { clock := 0, vbr := fun _ _ _ => [hourView], P := Dt.toy }

theorem toyEnv_fair : toyEnv.Fair := ⟨fun m => List.Perm.refl m, fun m => List.Perm.refl m⟩
theorem toyEnv_noFaults : toyEnv.NoFaults := ⟨fun _ => rfl, rfl, fun _ => rfl⟩

/-- A store with labels `a` in shard 0 and `b`, `c` in shard 1; row 0 has `a`, row 1 has `b`, row 2 has `c`. -/
def wideStore : Store (List (Bytes × Nat)) where
  ctx := { st := [(Label.encode { resource := 2, pfx := 1, key := [97] }, 3), (Label.encode { resource := 2, pfx := 1, key := [98] }, 1048576 + 3),
    (Label.encode { resource := 2, pfx := 1, key := [99] }, 1048576 + 4)] }
  frame := fun _ => none
  idx := Sh.run [.update 0 [(hourView, [3])] true, .update 1 [(hourView, [1048576 + 3, 2097152 + 4])] true]

/-- **C26** is false of the code with more than one shard: the scan for `a` and `b` finds nothing, adding `c` finds row 0. -/
theorem C26_widens_refuted : ∃ (sc : Scan) (f : Filter) (u : Nat),
    u ∈ found tableDict wideStore toyEnv { sc with filters := sc.filters ++ [f] } ∧ u ∉ found tableDict wideStore toyEnv sc := by
  refine ⟨{ scope := 2, filters := [.base 1 [97], .base 1 [98]] }, .base 1 [99], 0, ?_, ?_⟩ <;> decide +kernel

/-! ## C27–C29: what a scan returns -/

/-- With fewer than 2^20 labels and no restart, the only shard is open (or nothing was ever flushed). -/
theorem small_open (hD : D.Lawful) (hg : D.Good st) (ops : List (Op σ)) (hv : Valid D (fresh st) ops)
    (hnr : ∀ op ∈ ops, ∀ st, op ≠ .restart st) (hok : ∀ o ∈ samplesOf D st ops, o.ok = true)
    (hsmall : ∀ a n, D.look (run D st ops).ctx.st a = some n → n < 2 ^ 20) :
    0 ∈ (run D st ops).idx.opened ∨ samplesOf D st ops = [] := by
  obtain ⟨recs, so, h, hos, hr⟩ := hist_run hD hg ops hv
  rw [hos] at hok ⊢
  cases hc : recs.flatMap Rec.offered with
  | nil => exact .inr rfl
  | cons o os =>
    left
    have ho : o ∈ recs.flatMap Rec.offered := by rw [hc]; exact List.mem_cons_self
    obtain ⟨c, hcm, hoc⟩ := List.mem_flatMap.1 ho
    obtain ⟨n, hn⟩ := h.known hcm hoc (l := { resource := o.res }) (.inr rfl)
    obtain ⟨vs, -, hvs, -⟩ := Df.sampleViews_spec ((h.oks c hcm).small hoc).1
    obtain ⟨t, k, ht⟩ : ∃ t k, Cal.IsTime (toInt64 (startOf o.sample.data)) t k := by
      obtain ⟨t, k, ht, -⟩ := views_spec (toInt64_range _ ((h.oks c hcm).small hoc).1)
      exact ⟨t, k, ht⟩
    have hiv : o.InView (viewPrefix ++ pad4 t.y) := ⟨t, k, ht, by simp [specViews]⟩
    obtain ⟨op, h1, h2⟩ := h.stored_complete hcm hoc (hok o ho) hiv ⟨_, .inr rfl, hn⟩
    rw [h.idx', Sh.mem_opened_run]
    have hn' := hsmall _ _ hn
    have e : n / shardWidth = 0 := by unfold shardWidth; omega
    rw [e] at h2
    obtain ⟨pre, suf, e⟩ := List.append_of_mem h1
    refine ⟨pre, op, suf, e, ?_, fun hm => hr hnr (by rw [e]; simp [hm])⟩
    cases op with
    | update k ws ok => cases ok <;> simp [Sh.Op.Writes] at h2; exact h2.1
    | view k => exact h2.elim
    | restart => exact h2.elim

/-- **C29**, partial, and the basis of C27 and C28: the result of every scan, exactly, when all flushes succeeded, nothing fails,
the labels asked for are in one open shard, and the views of the scan start with sample 0. Missing: the other cases, where the
claim is false (C20, C21, C22, C23 and `C28_refuted`, `C29_refuted`). -/
theorem C29_scan_exact_partial (hD : D.Lawful) (hI : D.Injective) (hg : D.Good st) (ops : List (Op σ)) (hv : Valid D (fresh st) ops)
    (hi : Increasing (samplesOf D st ops)) (hok : ∀ o ∈ samplesOf D st ops, o.ok = true)
    (E : Env) (hE : E.Fair) (hF : E.NoFaults) (sc : Scan)
    (hscope : sc.scope = Res.metrics ∨ sc.scope = Res.logs ∨ sc.scope = Res.traces) (k : Nat)
    (hk : ∀ l ∈ sc.asked, ∀ n, D.look (run D st ops).ctx.st l.encode = some n → n / shardWidth = k)
    (hopen : k ∈ (run D st ops).idx.opened) (ha : ∀ v ∈ E.views sc, Aligned (samplesOf D st ops) v) :
    scan D (run D st ops) E sc =
      if matching (samplesOf D st ops) E sc = [] then .data (Dt.zero sc.scope)
      else merged E (payloads (picked sc (matching (samplesOf D st ops) E sc)) sc.scope (E.views sc)) := by
  obtain ⟨recs, so, h, hos, -⟩ := hist_run hD hg ops hv
  rw [hos] at hi hok ha ⊢
  exact h.scan_exact hI hi hE hF hscope hk (.inl hopen) hok ha

/-- The same for a store with fewer than 2^20 labels that was not restarted. -/
theorem C29_small_store_partial (hD : D.Lawful) (hI : D.Injective) (hg : D.Good st) (ops : List (Op σ)) (hv : Valid D (fresh st) ops)
    (hnr : ∀ op ∈ ops, ∀ st, op ≠ .restart st) (hsmall : ∀ a n, D.look (run D st ops).ctx.st a = some n → n < 2 ^ 20)
    (hi : Increasing (samplesOf D st ops)) (hok : ∀ o ∈ samplesOf D st ops, o.ok = true)
    (E : Env) (hE : E.Fair) (hF : E.NoFaults) (sc : Scan)
    (hscope : sc.scope = Res.metrics ∨ sc.scope = Res.logs ∨ sc.scope = Res.traces)
    (ha : ∀ v ∈ E.views sc, Aligned (samplesOf D st ops) v) :
    scan D (run D st ops) E sc =
      if matching (samplesOf D st ops) E sc = [] then .data (Dt.zero sc.scope)
      else merged E (payloads (picked sc (matching (samplesOf D st ops) E sc)) sc.scope (E.views sc)) := by
  have hop := small_open D st hD hg ops hv hnr hok hsmall
  obtain ⟨recs, so, h, hos, -⟩ := hist_run hD hg ops hv
  rw [hos] at hi hok ha hop ⊢
  refine h.scan_exact hI hi hE hF hscope (k := 0) (fun l _ n hn => ?_) hop hok ha
  have := hsmall _ _ hn
  unfold shardWidth; omega

/-- A label the data carries is a label of the signal of the data. -/
theorem carries_signal {d : Data} {l : Label} (h : Carries d l) : d.signal = some l.resource := by
  have ht : ∀ {r p s}, TextLabel r p s l → l.resource = r := by rintro r p s ⟨-, rfl⟩; rfl
  have ha : ∀ {r p kvs}, AttrLabel r p kvs l → l.resource = r := by rintro r p s ⟨_, _, _, _, _, rfl⟩; rfl
  have hi : ∀ {r p s}, IdLabel r p s l → l.resource = r := by rintro r p s ⟨_, _, rfl⟩; rfl
  have hgrp : ∀ {α : Type} {r : Int} {P : α → Label → Prop} {rs : List (ResourceG α)}, (∀ x, P x l → l.resource = r) →
      GroupLabel r P rs l → l.resource = r := by
    intro α r P rs hP h
    obtain ⟨rm, -, h⟩ := h
    rcases h with h | ⟨_, -, h⟩ | ⟨sm, -, h⟩
    · exact ht h
    · exact ha h
    · rcases h with h | ⟨_, -, h⟩ | ⟨x, -, h⟩
      · exact ht h
      · rcases h with h | h | h
        · exact ht h
        · exact ht h
        · exact ha h
      · exact hP x h
  cases d with
  | metrics rs =>
    rw [hgrp (fun m h => ?_) h]; rfl
    rcases h with rfl | ⟨d, -, p, -, h⟩
    · rfl
    · exact ha h
  | logs rs =>
    rw [hgrp (fun x h => ?_) h]; rfl
    rcases h with h | h | h | h
    · exact ht h
    · exact ha h
    · exact hi h
    · exact hi h
  | traces rs =>
    rw [hgrp (fun x h => ?_) h]; rfl
    rcases h with h | h | h | h
    · exact ht h
    · exact hi h
    · exact hi h
    · exact hi h
  | none => exact h.elim

/-- A sample that matches a scan with a filter (other than on the unnamed property) is of the scanned signal. -/
theorem matches_signal {o : Offered} {sc : Scan} (h : o.Matches sc) {l : Label} (hl : l ∈ sc.asked) (hp : l.pfx ≠ Pfx.unknown) :
    o.sample.data.signal = some sc.scope := by
  obtain ⟨l', h1, he⟩ := h.2 l hl
  have hr : l.resource = sc.scope := by
    unfold Scan.asked at hl
    split at hl
    · rw [List.mem_singleton] at hl; rw [hl]
    · obtain ⟨f, -, hf⟩ := List.mem_filterMap.1 hl
      cases f <;> simp [Filter.label] at hf <;> rw [← hf]
  obtain ⟨e1, e2, -⟩ := (C01_label_encode_eq_iff l' l).1 he
  rcases h1 with h1 | rfl
  · rw [carries_signal h1, e1, hr]
  · exact absurd e2.symm hp

/-- The sample is filed under exactly one of the views. -/
def OneView (views : List Bytes) (o : Offered) : Prop := ∃ a v b, views = a ++ v :: b ∧ o.InView v ∧ ∀ w ∈ a ++ b, ¬ o.InView w

open Classical in
theorem payloads_single {views : List Bytes} {o : Offered} {kind : Int} (h1 : OneView views o) (hk : o.sample.data.signal = some kind) :
    payloads [o] kind views = [o.sample.data] := by
  obtain ⟨a, v, b, rfl, hv, hn⟩ := h1
  have hz : ∀ vs : List Bytes, (∀ w ∈ vs, ¬ o.InView w) → payloads [o] kind vs = [] := by
    intro vs h
    unfold payloads
    rw [List.flatMap_eq_nil_iff]
    intro w hw
    simp [h w hw]
  have e : payloads [o] kind (a ++ v :: b) = payloads [o] kind a ++ payloads [o] kind [v] ++ payloads [o] kind b := by
    unfold payloads; simp [List.flatMap_append]
  rw [e, hz a fun w hw => hn w (by simp [hw]), hz b fun w hw => hn w (by simp [hw])]
  simp [payloads, hv, hk]

/-- **C27**, partial: an instant scan with a filter returns the unchanged payload of the matching sample with the highest id, and
an empty result when nothing matches. Missing: scans without a filter (`C27_refuted`), and the provisos of C29. -/
theorem C27_instant_latest_partial (hD : D.Lawful) (hI : D.Injective) (hg : D.Good st) (ops : List (Op σ)) (hv : Valid D (fresh st) ops)
    (hi : Increasing (samplesOf D st ops)) (hok : ∀ o ∈ samplesOf D st ops, o.ok = true)
    (E : Env) (hE : E.Fair) (hF : E.NoFaults) (sc : Scan)
    (hscope : sc.scope = Res.metrics ∨ sc.scope = Res.logs ∨ sc.scope = Res.traces) (k : Nat)
    (hk : ∀ l ∈ sc.asked, ∀ n, D.look (run D st ops).ctx.st l.encode = some n → n / shardWidth = k)
    (hopen : k ∈ (run D st ops).idx.opened) (ha : ∀ v ∈ E.views sc, Aligned (samplesOf D st ops) v)
    (hr : sc.time.range = none) (hfil : ∃ l ∈ sc.asked, l.pfx ≠ Pfx.unknown)
    (hone : ∀ o ∈ matching (samplesOf D st ops) E sc, OneView (E.views sc) o) :
    (matching (samplesOf D st ops) E sc = [] ∧ scan D (run D st ops) E sc = .data (Dt.zero sc.scope)) ∨
    ∃ o ∈ matching (samplesOf D st ops) E sc, (∀ o' ∈ matching (samplesOf D st ops) E sc, o'.sample.id ≤ o.sample.id) ∧
      scan D (run D st ops) E sc = .data (some o.sample.data) := by
  have hx := C29_scan_exact_partial D st hD hI hg ops hv hi hok E hE hF sc hscope k hk hopen ha
  by_cases hm : matching (samplesOf D st ops) E sc = []
  · left; rw [hx, if_pos hm]; exact ⟨hm, rfl⟩
  · right
    rw [if_neg hm] at hx
    have hinc : Increasing (matching (samplesOf D st ops) E sc) := List.Pairwise.filter _ hi
    refine ⟨_, List.getLast_mem hm, fun o' ho' => ?_, ?_⟩
    · rw [← List.dropLast_append_getLast hm] at ho' hinc
      unfold Increasing at hinc
      rw [List.pairwise_append] at hinc
      rcases List.mem_append.1 ho' with h | h
      · exact (hinc.2.2 o' h _ (by simp)).le
      · rw [List.mem_singleton] at h; rw [h]
    · rw [hx]
      unfold picked
      rw [hr]
      simp only
      rw [List.getLast?_eq_some_getLast hm]
      have hmem := List.getLast_mem hm
      obtain ⟨l, hl, hp⟩ := hfil
      rw [show (some ((matching (samplesOf D st ops) E sc).getLast hm)).toList = [(matching (samplesOf D st ops) E sc).getLast hm] from rfl,
        payloads_single (hone _ hmem) (matches_signal (mem_matching.1 hmem).2.1 hl hp)]
      rfl

/-- Logs, then metrics, in a new store. -/
def mixedOps : List (Op (List Bytes)) :=
  [.flush { samples := [{ id := 0, data := logAt 5 [97] }, { id := 1, data := .metrics [] }], commits := 5 }]

/-- **C27** is false of the code: after one successful flush of a log and a metrics sample, asking for the latest logs returns
nothing at all (not even an empty result): the metrics sample has the logs label (C20), is taken as the latest, and has no
logs. -/
theorem C27_refuted : (saveSamples listDict (fresh []) { samples := [{ id := 0, data := logAt 5 [97] }, { id := 1, data := .metrics [] }], commits := 5 }).2 = .ok ∧
    scan listDict (run listDict [] mixedOps) toyEnv { scope := Res.logs } = .data none := by
  refine ⟨by decide +kernel, by decide +kernel⟩

/-- **C28**, partial: whatever the history (flushes cut off anywhere, restarts), every payload that goes into a result is that of
a sample of the scanned signal that matches all filters and is filed under a scanned view; provided the labels are in one shard
and the views start with sample 0 (`C28_refuted` otherwise). -/
theorem C28_only_matching_partial (hD : D.Lawful) (hI : D.Injective) (hg : D.Good st) (ops : List (Op σ)) (hv : Valid D (fresh st) ops)
    (hi : Increasing (samplesOf D st ops)) (E : Env) (hE : E.Fair) (hF : E.NoFaults) (sc : Scan)
    (hscope : sc.scope = Res.metrics ∨ sc.scope = Res.logs ∨ sc.scope = Res.traces) (k : Nat)
    (hk : ∀ l ∈ sc.asked, ∀ n, D.look (run D st ops).ctx.st l.encode = some n → n / shardWidth = k)
    (ha : ∀ v ∈ E.views sc, Aligned (samplesOf D st ops) v) :
    scan D (run D st ops) E sc = .data (Dt.zero sc.scope) ∨
    ∃ ps, scan D (run D st ops) E sc = merged E ps ∧
      ∀ p ∈ ps, ∃ o ∈ samplesOf D st ops, o.Matches sc ∧ (∃ v ∈ E.views sc, o.InView v) ∧ o.sample.data = p ∧
        p.signal = some sc.scope := by
  obtain ⟨recs, so, h, hos, -⟩ := hist_run hD hg ops hv
  rw [hos] at hi ha ⊢
  obtain ⟨cols, hc, -, -⟩ := compileFilters_spec (D := D) (st := (run D st ops).ctx.st) hF.find sc
  have hsound := fun u => h.found_sound hI hi hE hF.find hk hc (u := u)
  unfold scan
  rw [hc, hF.rows]
  simp only
  split
  · exact .inl rfl
  · simp only [Bool.false_eq_true, if_false]
    cases hr : (run D st ops).idx.rows (E.views sc) (E.colOrder (Sh.groupCols cols)) with
    | none => exact .inl rfl
    | some ids =>
      rw [hr, Option.getD_some] at hsound
      simp only
      split
      · exact .inl rfl
      · right
        obtain ⟨l, h1, h2⟩ := Df.C24_payloads_partial _ h.valid sc.scope (chosen sc ids) (E.views sc)
          fun v hv => ⟨batches_increasing hi v, h.shift_zero hi (ha v hv)⟩
        have hff : E.frameFault = fun _ => false := funext hF.frame
        refine ⟨l.map (·.2), ?_, fun p hp => ?_⟩
        · unfold readSamples
          rw [if_pos hscope, hff, h.frame', h1]; rfl
        · obtain ⟨e, he, rfl⟩ := List.mem_map.1 hp
          obtain ⟨v, hv, x, hx, hid, hd, hs⟩ := h2 e he
          obtain ⟨c, hcm, o, ho, hiv, rfl⟩ := mem_batches hx
          have hch : e.1 ∈ chosen sc ids := ((Df.C24_reads_requested_kind _ h.valid _ _ _ _ l h1 e.1).1 (List.mem_map.2 ⟨e, he, rfl⟩)).1
          have hids : e.1 ∈ ids := by
            unfold chosen at hch
            cases hrange : sc.time.range with
            | some _ => rw [hrange] at hch; exact hch
            | none =>
              rw [hrange] at hch
              simp only at hch
              cases hg : ids.getLast? with
              | none => rw [hg] at hch; simp at hch
              | some i => rw [hg, List.mem_singleton] at hch; rw [hch]; exact List.mem_of_getLast? hg
          obtain ⟨c', hcm', -, o', ho', hid', hm, -⟩ := hsound e.1 hids
          have : o' = o := unique hi (List.mem_flatMap.2 ⟨c', hcm', ho'⟩) (List.mem_flatMap.2 ⟨c, hcm, ho⟩) (hid'.trans hid.symm)
          subst this
          exact ⟨o', List.mem_flatMap.2 ⟨c, hcm, ho⟩, hm, ⟨v, hv, hiv⟩, hd, hd ▸ hs⟩

/-- Samples 1 and 2 of a store (sample 0 was filed elsewhere or lost). -/
def shiftedOps : List (Op (List Bytes)) := [.flush (logFlush [(1, 5, [97]), (2, 7, [98])] 5)]

/-- **C28** is false of the code: a scan for severity `a` returns the record with severity `b`. -/
theorem C28_refuted : Valid listDict (fresh []) shiftedOps ∧
    scan listDict (run listDict [] shiftedOps) toyEnv
      { scope := Res.logs, filters := [.base Pfx.logsLevel [97]], time := { range := some (0, 10) } } = .data (some (logAt 7 [98])) :=
  ⟨⟨logFlush_fair _ (by decide), by decide +kernel, trivial⟩, by decide +kernel⟩

/-! ### Records -/

/-- The log records of a payload. -/
def logRecords : Data → List LogRecord
  | .logs rs => Dt.plainRecords rs
  | _ => []
/-- The spans of a payload. -/
def spans : Data → List Span
  | .traces rs => Dt.plainRecords rs
  | _ => []
/-- The data points of a payload. -/
def dataPoints : Data → List (MKind × DataPoint)
  | .metrics rs => Dt.plainPoints rs
  | _ => []

open Classical in
/-- When every sample is in one of the views only, each payload is read once. -/
theorem payloads_perm {os : List Offered} {views : List Bytes} {kind : Int} (h1 : ∀ o ∈ os, OneView views o)
    (hk : ∀ o ∈ os, o.sample.data.signal = some kind) : (payloads os kind views).Perm (os.map (·.sample.data)) := by
  induction os with
  | nil => unfold payloads; simp
  | cons o os ih =>
    have ih := ih (fun x hx => h1 x (List.mem_cons_of_mem _ hx)) (fun x hx => hk x (List.mem_cons_of_mem _ hx))
    have hs := payloads_single (h1 o List.mem_cons_self) (hk o List.mem_cons_self)
    have hsplit : ∀ vs : List Bytes, (payloads (o :: os) kind vs).Perm (payloads [o] kind vs ++ payloads os kind vs) := by
      intro vs
      unfold payloads
      induction vs with
      | nil => simp
      | cons v vs ih2 =>
        simp only [List.flatMap_cons]
        have e : ((o :: os).filter fun o => decide (o.InView v ∧ o.sample.data.signal = some kind)) =
            ([o].filter fun o => decide (o.InView v ∧ o.sample.data.signal = some kind)) ++
              os.filter fun o => decide (o.InView v ∧ o.sample.data.signal = some kind) := by
          rw [← List.filter_append]; rfl
        rw [e, List.map_append]
        generalize ([o].filter fun o => decide (o.InView v ∧ o.sample.data.signal = some kind)).map (·.sample.data) = A
        generalize (os.filter fun o => decide (o.InView v ∧ o.sample.data.signal = some kind)).map (·.sample.data) = B
        refine (List.Perm.append_left (A ++ B) ih2).trans ?_
        rw [List.append_assoc, List.append_assoc]
        refine List.Perm.append_left A ?_
        rw [← List.append_assoc, ← List.append_assoc]
        exact List.Perm.append_right _ List.perm_append_comm
    refine (hsplit views).trans ?_
    rw [hs, List.map_cons]
    exact List.Perm.cons _ ih

theorem all_logs {ps : List Data} (h : ∀ p ∈ ps, p.signal = some Res.logs) : ∃ ds, ps = List.map Data.logs ds := by
  induction ps with
  | nil => exact ⟨[], rfl⟩
  | cons p ps ih =>
    obtain ⟨ds, rfl⟩ := ih fun x hx => h x (List.mem_cons_of_mem _ hx)
    have := h p List.mem_cons_self
    cases p with
    | logs d => exact ⟨d :: ds, rfl⟩
    | metrics _ => exact absurd this (by simp [Data.signal, Res.metrics, Res.logs])
    | traces _ => exact absurd this (by simp [Data.signal, Res.traces, Res.logs])
    | none => exact absurd this (by simp [Data.signal])

/-- **C29**, partial: a range scan for logs with a filter returns the log records of exactly the matching samples, each record
once. -/
theorem C29_log_records_partial (hD : D.Lawful) (hI : D.Injective) (hg : D.Good st) (ops : List (Op σ)) (hv : Valid D (fresh st) ops)
    (hi : Increasing (samplesOf D st ops)) (hok : ∀ o ∈ samplesOf D st ops, o.ok = true)
    (E : Env) (hE : E.Fair) (hF : E.NoFaults) (sc : Scan) (hscope : sc.scope = Res.logs) (k : Nat)
    (hk : ∀ l ∈ sc.asked, ∀ n, D.look (run D st ops).ctx.st l.encode = some n → n / shardWidth = k)
    (hopen : k ∈ (run D st ops).idx.opened) (ha : ∀ v ∈ E.views sc, Aligned (samplesOf D st ops) v)
    (hr : sc.time.range.isSome) (hfil : ∃ l ∈ sc.asked, l.pfx ≠ Pfx.unknown)
    (hone : ∀ o ∈ matching (samplesOf D st ops) E sc, OneView (E.views sc) o) :
    ∃ out, scan D (run D st ops) E sc = .data (some (.logs out)) ∧
      (logRecords (.logs out)).Perm ((matching (samplesOf D st ops) E sc).flatMap fun o => logRecords o.sample.data) := by
  have hx := C29_scan_exact_partial D st hD hI hg ops hv hi hok E hE hF sc (.inr (.inl hscope)) k hk hopen ha
  have hsig : ∀ o ∈ matching (samplesOf D st ops) E sc, o.sample.data.signal = some sc.scope := fun o ho => by
    obtain ⟨l, hl, hp⟩ := hfil
    exact matches_signal (mem_matching.1 ho).2.1 hl hp
  have hpk : picked sc (matching (samplesOf D st ops) E sc) = matching (samplesOf D st ops) E sc := by
    unfold picked
    cases hrr : sc.time.range with
    | none => rw [hrr] at hr; cases hr
    | some _ => rfl
  rw [hpk] at hx
  have hperm := payloads_perm (kind := sc.scope) hone hsig
  generalize matching (samplesOf D st ops) E sc = M at *
  by_cases hm : M = []
  · rw [if_pos hm] at hx
    rw [hx, hm, hscope]
    exact ⟨[], rfl, by simp [logRecords, Dt.plainRecords]⟩
  · rw [if_neg hm] at hx
    have hlogs : ∀ p ∈ payloads M sc.scope (E.views sc), p.signal = some Res.logs := fun p hp => by
      obtain ⟨o, ho, rfl⟩ := List.mem_map.1 (hperm.mem_iff.1 hp)
      rw [hsig o ho, hscope]
    obtain ⟨ds, hds⟩ := all_logs hlogs
    have hne : ds ≠ [] := by
      rintro rfl
      rw [hds] at hperm
      have := hperm.symm.eq_nil
      exact hm (List.map_eq_nil_iff.1 this)
    obtain ⟨out, h1, h2, -⟩ := Dt.C33_logs E.P E.resOrder hE.res ds hne
    refine ⟨out, ?_, ?_⟩
    · rw [hx, hds]; unfold merged; rw [h1]
    · refine h2.trans ?_
      have e : Dt.plainRecords ds.flatten = (ds.map Data.logs).flatMap logRecords := by
        clear hds hne h1 h2
        induction ds with
        | nil => rfl
        | cons d ds ih =>
          rw [List.flatten_cons, List.map_cons, List.flatMap_cons, ← ih]
          simp [Dt.plainRecords, logRecords]
      rw [e, ← hds]
      refine (hperm.flatMap_right _).trans ?_
      rw [List.flatMap_map]

end Verif.St
