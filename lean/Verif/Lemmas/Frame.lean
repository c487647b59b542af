import Verif.Lemmas.Bitmap
import Verif.Lemmas.Time
import Verif.Spec.Frame
import Mathlib.Data.List.Induction
/-!
# Facts about the data frame
-/
namespace Verif.Df
open Tm

/-! ### Grouping by view -/

theorem specViews_nodup (t : Cal.Date) (h : Nat) : (specViews t h).Nodup := by
  simp [specViews, pad4, pad2]

theorem sampleViews_spec {ts : Nat} (h : ts < 2 ^ 64) :
    ∃ vs, sampleViews ts = some vs ∧ (∀ v, v ∈ vs ↔ IsView (toInt64 ts) v) ∧ vs.Nodup := by
  obtain ⟨t, k, ht, hv⟩ := views_spec (toInt64_range ts h)
  refine ⟨_, hv, fun v => ⟨fun hv => ⟨t, k, ht, hv⟩, ?_⟩, specViews_nodup t k⟩
  rintro ⟨t', h', ht', hv'⟩
  obtain ⟨rfl, rfl⟩ := isTime_unique ht ht'
  exact hv'

theorem get_pushAll (vs : List Bytes) (hn : vs.Nodup) (m : AMap Bytes (List Sample)) (s : Sample) (v : Bytes) :
    (vs.foldl (fun m x => m.set x ((m.get x).getD [] ++ [s])) m).get v =
      if v ∈ vs then some ((m.get v).getD [] ++ [s]) else m.get v := by
  induction vs generalizing m with
  | nil => simp
  | cons x xs ih =>
    rw [List.nodup_cons] at hn
    rw [List.foldl_cons, ih hn.2, AMap.get_set]
    by_cases hx : x = v
    · subst hx; simp [hn.1]
    · have : ¬ v = x := fun e => hx e.symm
      simp [hx, this]

theorem ok_pushAll (vs : List Bytes) (m : AMap Bytes (List Sample)) (s : Sample) (h : m.Ok) :
    (vs.foldl (fun m x => m.set x ((m.get x).getD [] ++ [s])) m).Ok := by
  induction vs generalizing m with
  | nil => exact h
  | cons x xs ih => exact ih _ (AMap.set_ok h _ _)

open Classical in
theorem groupViews_spec (ss : List Sample) (h : ∀ s ∈ ss, s.minTs < 2 ^ 64) (m : AMap Bytes (List Sample)) (hm : m.Ok) :
    ∃ m', groupViews ss m = some m' ∧ m'.Ok ∧
      ∀ v, m'.get v = if (ss.filter fun s => decide (IsView (toInt64 s.minTs) v)) = [] then m.get v
        else some ((m.get v).getD [] ++ ss.filter fun s => decide (IsView (toInt64 s.minTs) v)) := by
  induction ss generalizing m with
  | nil => exact ⟨m, rfl, hm, by simp⟩
  | cons s ss ih =>
    obtain ⟨vs, h1, h2, h3⟩ := sampleViews_spec (h s (by simp))
    obtain ⟨m', e, hok, hg⟩ := ih (fun t ht => h t (by simp [ht])) _ (ok_pushAll vs m s hm)
    refine ⟨m', by simp only [groupViews, h1]; exact e, hok, fun v => ?_⟩
    rw [hg, get_pushAll vs h3]
    by_cases hv : IsView (toInt64 s.minTs) v
    · simp only [(h2 v).2 hv, if_true, Option.getD_some, List.filter_cons, hv, decide_true]
      split
      · rename_i h'; simp [h']
      · simp
    · have : v ∉ vs := fun h' => hv ((h2 v).1 h')
      simp only [this, if_false, List.filter_cons, hv, decide_false]
      rfl

theorem appendViews_get (m : AMap Bytes (List Sample)) (hm : m.Ok) (f : Frame) (v : Bytes) :
    (m.foldl (fun f e => appendView f e.1 e.2) f) v =
      match m.get v with
      | none => f v
      | some ss => some (ss.foldl appendOne (startState (f v))).recd := by
  induction m generalizing f with
  | nil => rfl
  | cons e m ih =>
    obtain ⟨x, ss⟩ := e
    have hm' : x ∉ m.map (·.1) ∧ AMap.Ok m := by simpa [AMap.Ok] using hm
    rw [List.foldl_cons, ih hm'.2]
    simp only [AMap.get]
    by_cases hx : x = v
    · subst hx
      have : AMap.get m x = none := by
        cases h : AMap.get m x with
        | none => rfl
        | some _ => exact absurd (AMap.mem_keys.2 (by rw [h]; rfl)) hm'.1
      simp [this, appendView]
    · have hx' : ¬ v = x := fun e => hx e.symm
      simp [hx, hx', appendView]

/-- A list of batches written one after the other to one view. -/
def build (bs : List (List Sample)) : Option VRec :=
  bs.foldl (fun o b => some (b.foldl appendOne (startState o)).recd) none

theorem take_ok {m : AMap Bytes (List Sample)} (h : m.Ok) (n : Nat) : AMap.Ok (m.take n) := by
  unfold AMap.Ok at *; rw [List.map_take]; exact h.sublist (List.take_sublist _ _)

theorem perm_ok {m m' : AMap Bytes (List Sample)} (h : m.Ok) (hp : m'.Perm m) : m'.Ok :=
  (List.Perm.nodup_iff (List.Perm.map (fun x : Bytes × List Sample => x.1) hp)).2 h

theorem step_view {c : Call} (hc : c.Valid) (f : Frame) (v : Bytes) :
    step f c v = if c.Committed v then some ((c.inView v).foldl appendOne (startState (f v))).recd else f v := by
  obtain ⟨h1, m, h2, h3⟩ := hc
  obtain ⟨m', e, hok, hg⟩ := groupViews_spec c.samples h1 [] (by simp [AMap.Ok])
  rw [h2] at e; cases e
  have ho := perm_ok hok h3
  unfold step appendViews
  simp only []
  rw [appendViews_get _ (take_ok ho _)]
  by_cases hcm : c.Committed v
  · rw [if_pos hcm]
    obtain ⟨⟨x, ss⟩, hmem, rfl⟩ := List.mem_map.1 hcm
    have h4 : AMap.get (c.order.take c.commits) x = some ss := AMap.get_of_mem (take_ok ho _) hmem
    have h5 : m.get x = some ss := AMap.get_of_mem hok (h3.mem_iff.1 (List.mem_of_mem_take hmem))
    rw [hg] at h5
    simp only [] at h4 ⊢
    rw [h4]
    split at h5
    · simp [AMap.get] at h5
    · simp only [AMap.get, Option.getD_none, List.nil_append, Option.some.injEq] at h5
      simp only [Call.inView, ← h5]
  · rw [if_neg hcm]
    have : AMap.get (c.order.take c.commits) v = none := by
      cases h : AMap.get (c.order.take c.commits) v with
      | none => rfl
      | some _ => exact absurd (AMap.mem_keys.2 (by rw [h]; rfl)) hcm
    rw [this]

theorem inView_ne_nil {c : Call} (hc : c.Valid) {v : Bytes} (h : c.Committed v) : c.inView v ≠ [] := by
  obtain ⟨h1, m, h2, h3⟩ := hc
  obtain ⟨m', e, hok, hg⟩ := groupViews_spec c.samples h1 [] (by simp [AMap.Ok])
  rw [h2] at e; cases e
  obtain ⟨⟨x, ss⟩, hmem, rfl⟩ := List.mem_map.1 h
  have h5 : m.get x = some ss := AMap.get_of_mem hok (h3.mem_iff.1 (List.mem_of_mem_take hmem))
  rw [hg] at h5
  intro h6
  unfold Call.inView at h6
  simp only [] at h6
  rw [if_pos h6] at h5
  simp [AMap.get] at h5

theorem run_snoc (cs : List Call) (c : Call) : run (cs ++ [c]) = step (run cs) c := by simp [run]

theorem run_view (cs : List Call) (hv : ∀ c ∈ cs, c.Valid) (v : Bytes) : run cs v = build (batches cs v) := by
  induction cs using List.reverseRecOn with
  | nil => rfl
  | append_singleton cs c ih =>
    rw [run_snoc, step_view (hv c (by simp)), ih (fun x hx => hv x (by simp [hx]))]
    unfold batches
    rw [List.filter_append, List.map_append]
    by_cases h : c.Committed v
    · simp [h, build]
    · simp [h]

theorem batches_ne_nil {cs : List Call} (hv : ∀ c ∈ cs, c.Valid) {v : Bytes} {b : List Sample} (hb : b ∈ batches cs v) : b ≠ [] := by
  obtain ⟨c, hc, rfl⟩ := List.mem_map.1 hb
  simp only [List.mem_filter, decide_eq_true_eq] at hc
  exact inView_ne_nil (hv c hc.1) hc.2

/-! ### Layout -/

theorem setSample_rows (r : VRec) (s : Sample) : (setSample r s).rows = r.rows := by
  unfold setSample; split <;> rfl

/-- What a run of the append loop does to the rows. -/
structure Laid (st : AppendState) (d : Nat) (ss : List Sample) (fin : AppendState) : Prop where
  len : fin.recd.rows.length + d = fin.last + 1
  pre : st.recd.rows <+: fin.recd.rows
  at_ : ∀ s ∈ ss, d ≤ s.id ∧ fin.recd.rows[s.id - d]? = some s.data
  fill : ∀ i, st.recd.rows.length ≤ i → i < fin.recd.rows.length → (∀ s ∈ ss, s.id - d ≠ i) → fin.recd.rows[i]? = some .none

theorem appendAll_laid (ss : List Sample) (st : AppendState) (d : Nat) (hd : st.recd.rows.length + d = st.last + 1) 
    (hinc : ss.Pairwise (fun a b => a.id < b.id)) (hlast : ∀ s ∈ ss, st.last < s.id) :
    Laid st d ss (ss.foldl appendOne st) := by
  induction ss generalizing st with
  | nil =>
    exact ⟨hd, List.prefix_rfl, by simp, fun i h1 h2 => by simp at h2; omega⟩
  | cons s ss ih =>
    rw [List.pairwise_cons] at hinc
    have hs := hlast s (by simp)
    rw [List.foldl_cons]
    have hrows : (appendOne st s).recd.rows = st.recd.rows ++ List.replicate (s.id - (st.last + 1)) Data.none ++ [s.data] := by
      simp [appendOne, setSample_rows]
    have hl : (appendOne st s).last = s.id := rfl
    have hlen : (appendOne st s).recd.rows.length + d = (appendOne st s).last + 1 := by
      rw [hrows, hl]; simp; omega
    have r := ih (appendOne st s) hlen hinc.2 (fun t ht => by rw [hl]; exact hinc.1 t ht)
    obtain ⟨t, ht⟩ := r.pre
    have hpos : s.id - d < (appendOne st s).recd.rows.length := by rw [hl] at hlen; omega
    refine ⟨r.len, ?_, ?_, ?_⟩
    · exact List.IsPrefix.trans ⟨_, by rw [hrows, List.append_assoc]⟩ r.pre
    · intro x hx
      rcases List.mem_cons.1 hx with rfl | hx
      · refine ⟨by omega, ?_⟩
        rw [← ht, List.getElem?_append_left hpos, hrows, List.getElem?_append_right (by simp; omega)]
        have : x.id - d - (st.recd.rows ++ List.replicate (x.id - (st.last + 1)) Data.none).length = 0 := by simp; omega
        rw [this]; rfl
      · exact r.at_ x hx
    · intro i h1 h2 h3
      by_cases hi : i < (appendOne st s).recd.rows.length
      · rw [← ht, List.getElem?_append_left hi, hrows]
        have hne := h3 s (by simp)
        have hi' : i < (st.recd.rows ++ List.replicate (s.id - (st.last + 1)) Data.none).length := by
          rw [hl] at hlen; simp; omega
        rw [List.getElem?_append_left hi', List.getElem?_append_right h1]
        rw [List.getElem?_replicate]
        rw [if_pos]
        simp at hi'; omega
      · exact r.fill i (by omega) h2 (fun x hx => h3 x (by simp [hx]))

/-- The first batch: sample `s` lands in row `s.id - d`. -/
theorem first_batch (b : List Sample) (hne : b ≠ []) (hinc : b.Pairwise (fun a b => a.id < b.id)) :
    Laid (startState none) (shift [b]) b (b.foldl appendOne (startState none)) := by
  cases b with
  | nil => exact absurd rfl hne
  | cons s ss =>
    by_cases h0 : s.id = 0
    · have hsh : shift [s :: ss] = 0 := by simp [shift, h0]
      rw [hsh]
      rw [List.pairwise_cons] at hinc
      rw [List.foldl_cons]
      have hrows : (appendOne (startState none) s).recd.rows = [s.data] := by
        simp [appendOne, setSample_rows, startState, h0]
      have hl : (appendOne (startState none) s).last = 0 := h0
      have r := appendAll_laid ss (appendOne (startState none) s) 0 (by rw [hrows, hl]; rfl) hinc.2
        (fun t ht => by rw [hl]; have := hinc.1 t ht; omega)
      obtain ⟨t, ht⟩ := r.pre
      refine ⟨r.len, ⟨_, List.nil_append _⟩, ?_, ?_⟩
      · intro x hx
        rcases List.mem_cons.1 hx with rfl | hx
        · refine ⟨by omega, ?_⟩
          rw [← ht, hrows, h0]; rfl
        · exact r.at_ x hx
      · intro i h1 h2 h3
        have := h3 s (by simp)
        exact r.fill i (by rw [hrows]; simp; omega) h2 (fun x hx => h3 x (by simp [hx]))
    · have hsh : shift [s :: ss] = 1 := by simp [shift, h0]
      rw [hsh]
      refine appendAll_laid (s :: ss) (startState none) 1 rfl hinc ?_
      intro t ht
      rw [List.pairwise_cons] at hinc
      show 0 < t.id
      rcases List.mem_cons.1 ht with rfl | ht
      · omega
      · have := hinc.1 t ht; omega

theorem foldl_last (ss : List Sample) (st : AppendState) (h : ss ≠ []) :
    ∃ s ∈ ss, (ss.foldl appendOne st).last = s.id := by
  induction ss using List.reverseRecOn with
  | nil => exact absurd rfl h
  | append_singleton ss s _ => exact ⟨s, by simp, by simp [appendOne]⟩

/-- The whole history of one view. -/
structure Layout (b0 : List Sample) (rest : List (List Sample)) (r : VRec) : Prop where
  first : ∀ s ∈ b0, shift [b0] ≤ s.id ∧ r.rows[s.id - shift [b0]]? = some s.data
  later : ∀ s ∈ rest.flatten, r.rows[s.id]? = some s.data
  fill : ∀ i, i < r.rows.length → (∀ s ∈ b0, s.id - shift [b0] ≠ i) → (∀ s ∈ rest.flatten, s.id ≠ i) → r.rows[i]? = some .none
  len : ∃ s ∈ b0 ++ rest.flatten, (∀ t ∈ b0 ++ rest.flatten, t.id ≤ s.id) ∧
    r.rows.length = s.id + 1 - (if rest = [] then shift [b0] else 0)
  pos : r.rows ≠ []

theorem shift_le (bs : List (List Sample)) : shift bs ≤ 1 := by
  unfold shift; split
  · split <;> omega
  · omega

theorem build_layout (b0 : List Sample) (rest : List (List Sample)) (hne : ∀ b ∈ b0 :: rest, b ≠ [])
    (hinc : Increasing (b0 :: rest)) : ∃ r, build (b0 :: rest) = some r ∧ Layout b0 rest r := by
  induction rest using List.reverseRecOn with
  | nil =>
    have hi : b0.Pairwise (fun a b => a.id < b.id) := by simpa [Increasing] using hinc
    have hb := hne b0 (by simp)
    have r := first_batch b0 hb hi
    obtain ⟨s, hs, hl⟩ := foldl_last b0 (startState none) hb
    refine ⟨_, rfl, r.at_, by simp, fun i h1 h2 _ => r.fill i (by simp [startState]) h1 h2, ?_, ?_⟩
    · refine ⟨s, by simpa using hs, ?_, ?_⟩
      · intro t ht
        have ht' : t ∈ b0 := by simpa using ht
        obtain ⟨h1, h2⟩ := r.at_ t ht'
        have h3 := (List.getElem?_eq_some_iff.1 h2).1
        have := r.len; omega
      · have := r.len
        have hd := shift_le [b0]
        simp only [if_true]; omega
    · obtain ⟨h1, h2⟩ := r.at_ s hs
      intro h; rw [h] at h2; simp at h2
  | append_singleton rest b ih =>
    have hflat : ((b0 :: (rest ++ [b])).flatten) = (b0 :: rest).flatten ++ b := by simp
    have hinc' : ((b0 :: rest).flatten ++ b).Pairwise (fun a b => a.id < b.id) := by
      have := hinc; unfold Increasing at this; rwa [hflat] at this
    rw [List.pairwise_append] at hinc'
    obtain ⟨r, hr, hL⟩ := ih (fun x hx => hne x (by simp at hx ⊢; tauto)) hinc'.1
    have hb := hne b (by simp)
    have hbuild : build (b0 :: (rest ++ [b])) = some (b.foldl appendOne (startState (some r))).recd := by
      unfold build at hr ⊢
      rw [← List.cons_append, List.foldl_append, hr]; rfl
    obtain ⟨sm, hsm, hmax, hlen⟩ := hL.len
    have hlen1 : r.rows.length ≤ sm.id + 1 := by split at hlen <;> omega
    have hpos := List.length_pos_iff.2 hL.pos
    have L := appendAll_laid b (startState (some r)) 0 (by show r.rows.length + 0 = r.rows.length - 1 + 1; omega) hinc'.2.1
      (fun s hs => by
        have := hinc'.2.2 sm (by simpa using hsm) s hs
        show r.rows.length - 1 < s.id; omega)
    obtain ⟨t, ht⟩ := L.pre
    have ht' : r.rows ++ t = (b.foldl appendOne (startState (some r))).recd.rows := ht
    have hpre : ∀ i d, r.rows[i]? = some d → (b.foldl appendOne (startState (some r))).recd.rows[i]? = some d := fun i d h => by
      rw [← ht', List.getElem?_append_left (List.getElem?_eq_some_iff.1 h).1]; exact h
    refine ⟨_, hbuild, fun s hs => ⟨(hL.first s hs).1, hpre _ _ (hL.first s hs).2⟩, ?_, ?_, ?_, ?_⟩
    · intro s hs
      simp only [List.flatten_append, List.flatten_cons, List.flatten_nil, List.append_nil, List.mem_append] at hs
      rcases hs with hs | hs
      · exact hpre _ _ (hL.later s hs)
      · exact (L.at_ s hs).2
    · intro i h1 h2 h3
      by_cases hi : i < r.rows.length
      · exact hpre _ _ (hL.fill i hi h2 (fun s hs => h3 s (by rw [List.flatten_append]; exact List.mem_append_left _ hs)))
      · exact L.fill i (by show r.rows.length ≤ i; omega) h1 (fun s hs => h3 s (by simp; tauto))
    · obtain ⟨s, hs, hl⟩ := foldl_last b (startState (some r)) hb
      have hll := L.len
      rw [hl] at hll
      refine ⟨s, by simp [hs], ?_, by simp; omega⟩
      intro x hx
      have hx' : x ∈ (b0 :: rest).flatten ∨ x ∈ b := by simpa [or_assoc] using hx
      rcases hx' with hx' | hx'
      · exact Nat.le_of_lt (hinc'.2.2 x hx' s hs)
      · have h2 := (L.at_ x hx').2
        have := (List.getElem?_eq_some_iff.1 h2).1
        omega
    · intro h; have := ht'; rw [h] at this; simp at this; exact hL.pos this.1

/-! ### Sets -/

theorem Data.signal_kinds (d : Data) (k : Int) (h : d.signal = some k) : k = Res.metrics ∨ k = Res.traces ∨ k = Res.logs := by
  cases d <;> simp [Data.signal] at h <;> simp [← h]

theorem mem_setSample (r : VRec) (s : Sample) (k : Int) (i : Nat) :
    i ∈ (setSample r s).set k ↔ (i = s.id ∧ s.data.signal = some k) ∨ i ∈ r.set k := by
  have h1 : ¬ Res.traces = Res.metrics := by decide
  have h2 : ¬ Res.logs = Res.metrics := by decide
  have h3 : ¬ Res.logs = Res.traces := by decide
  unfold setSample VRec.set
  cases s.data with
  | none => simp [Data.signal]
  | metrics rs =>
    by_cases hk : k = Res.metrics
    · simp [hk, Data.signal, Bm.mem_add]
    · have : ¬ Res.metrics = k := fun e => hk e.symm
      simp [hk, Data.signal, this]
  | traces rs =>
    by_cases hk : k = Res.traces
    · simp [hk, Data.signal, Bm.mem_add, h1]
    · have : ¬ Res.traces = k := fun e => hk e.symm
      simp [hk, Data.signal, this]
  | logs rs =>
    by_cases hk : k = Res.logs
    · simp [hk, Data.signal, Bm.mem_add, h2, h3]
    · have : ¬ Res.logs = k := fun e => hk e.symm
      simp [hk, Data.signal, this]

theorem mem_set_foldl (ss : List Sample) (st : AppendState) (k : Int) (i : Nat) :
    i ∈ (ss.foldl appendOne st).recd.set k ↔ (∃ s ∈ ss, i = s.id ∧ s.data.signal = some k) ∨ i ∈ st.recd.set k := by
  induction ss generalizing st with
  | nil => simp
  | cons s ss ih =>
    rw [List.foldl_cons, ih]
    have : (appendOne st s).recd.set k = (setSample st.recd s).set k := rfl
    rw [this, mem_setSample]
    simp only [List.mem_cons, exists_eq_or_imp]
    constructor
    · rintro (h | h | h)
      · exact .inl (.inr h)
      · exact .inl (.inl h)
      · exact .inr h
    · rintro ((h | h) | h)
      · exact .inr (.inl h)
      · exact .inl h
      · exact .inr (.inr h)

theorem mem_set_build (bs : List (List Sample)) (k : Int) (i : Nat) (r : VRec) (hr : build bs = some r) :
    i ∈ r.set k ↔ ∃ s ∈ bs.flatten, i = s.id ∧ s.data.signal = some k := by
  induction bs using List.reverseRecOn generalizing r with
  | nil => simp [build] at hr
  | append_singleton bs b ih =>
    unfold build at hr
    rw [List.foldl_append] at hr
    simp only [List.foldl_cons, List.foldl_nil, Option.some.injEq] at hr
    subst hr
    rw [mem_set_foldl]
    have hst : ∀ o, (∀ r, o = some r → (i ∈ r.set k ↔ ∃ s ∈ bs.flatten, i = s.id ∧ s.data.signal = some k)) →
        (o = none → bs = []) →
        (i ∈ (startState o).recd.set k ↔ ∃ s ∈ bs.flatten, i = s.id ∧ s.data.signal = some k) := by
      intro o h1 h2
      cases o with
      | none => rw [h2 rfl]; simp [startState, VRec.set]
      | some r => exact h1 r rfl
    rw [hst (List.foldl (fun (o : Option VRec) (b : List Sample) => some (b.foldl appendOne (startState o)).recd) none bs) (fun r h => ih r h) (by
      intro h
      cases bs using List.reverseRecOn with
      | nil => rfl
      | append_singleton bs' b' => rw [List.foldl_append] at h; simp at h)]
    simp only [List.flatten_append, List.flatten_cons, List.flatten_nil, List.append_nil, List.mem_append]
    constructor
    · rintro (⟨s, hs, h⟩ | ⟨s, hs, h⟩)
      · exact ⟨s, .inr hs, h⟩
      · exact ⟨s, .inl hs, h⟩
    · rintro ⟨s, hs | hs, h⟩
      · exact .inr ⟨s, hs, h⟩
      · exact .inl ⟨s, hs, h⟩

theorem build_isSome {bs : List (List Sample)} : (build bs).isSome ↔ bs ≠ [] := by
  cases bs using List.reverseRecOn with
  | nil => simp [build]
  | append_singleton bs' b' => unfold build; rw [List.foldl_append]; simp

end Verif.Df
