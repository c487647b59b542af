import Verif.Lemmas.Frame
import Mathlib.Tactic.Tauto
/-!
# C23, C24: the data frame

`cs` is any history of `Append` calls, each with any iteration order of its views and any number of its per-view
transactions committed (the rest failed, or the process died). `batches cs v` are the batches of samples that were committed
to view `v`.
-/
namespace Verif.Df
open Tm

/-! ## C23 -/

/-- **C23**, exactly what every view holds after every history with increasing ids. `shift` is 1 when the first sample of the
view is not sample 0: then the first batch lies one row too low. All other batches are right, the rest of the rows is empty. -/
theorem C23_layout_exact (cs : List Call) (hc : ∀ c ∈ cs, c.Valid) (v : Bytes) (b0 : List Sample) (rest : List (List Sample))
    (hb : batches cs v = b0 :: rest) (hinc : Increasing (batches cs v)) :
    ∃ r, run cs v = some r ∧
      (∀ s ∈ b0, shift [b0] ≤ s.id ∧ r.rows[s.id - shift [b0]]? = some s.data) ∧
      (∀ s ∈ rest.flatten, r.rows[s.id]? = some s.data) ∧
      (∀ i, i < r.rows.length → (∀ s ∈ b0, s.id - shift [b0] ≠ i) → (∀ s ∈ rest.flatten, s.id ≠ i) →
        r.rows[i]? = some .none) ∧
      ∃ s ∈ (batches cs v).flatten, (∀ t ∈ (batches cs v).flatten, t.id ≤ s.id) ∧
        r.rows.length = s.id + 1 - (if rest = [] then shift [b0] else 0) := by
  obtain ⟨r, hr, hL⟩ := build_layout b0 rest (fun b h => batches_ne_nil hc (hb ▸ h)) (hb ▸ hinc)
  refine ⟨r, by rw [run_view cs hc, hb, hr], hL.first, hL.later, hL.fill, ?_⟩
  rw [hb]; simpa using hL.len

/-- **C23**, partial: if the first sample of a view is sample 0, row `i` holds sample `i` and all other rows are empty
(missing: views that start with a later sample, for which the statement is false). -/
theorem C23_row_is_id_partial (cs : List Call) (hc : ∀ c ∈ cs, c.Valid) (v : Bytes) (hinc : Increasing (batches cs v))
    (h0 : shift (batches cs v) = 0) (hne : batches cs v ≠ []) :
    ∃ r, run cs v = some r ∧ (∀ s ∈ (batches cs v).flatten, r.rows[s.id]? = some s.data) ∧
      ∀ i, i < r.rows.length → (∀ s ∈ (batches cs v).flatten, s.id ≠ i) → r.rows[i]? = some .none := by
  obtain ⟨b0, rest, hb⟩ := List.exists_cons_of_ne_nil hne
  obtain ⟨r, h1, h2, h3, h4, _⟩ := C23_layout_exact cs hc v b0 rest hb hinc
  have hs : shift [b0] = 0 := by
    rw [hb] at h0
    cases b0 with
    | nil => rfl
    | cons s t => exact h0
  rw [hs] at h2 h4
  refine ⟨r, h1, fun s h => ?_, fun i hi h => ?_⟩
  · rw [hb] at h
    rw [List.flatten_cons] at h
    rcases List.mem_append.1 h with h | h
    · exact (h2 s h).2
    · exact h3 s h
  · rw [hb] at h
    exact h4 i hi (fun s hs => h s (by simp [hs])) (fun s hs => h s (by rw [List.flatten_cons]; exact List.mem_append_right _ hs))

/-- **C23** is false of the code, for *every* view whose first sample is not sample 0: as long as it has one batch, the row of
its newest sample does not exist. -/
theorem C23_newest_row_missing (cs : List Call) (hc : ∀ c ∈ cs, c.Valid) (v : Bytes) (b0 : List Sample)
    (hb : batches cs v = [b0]) (hinc : Increasing (batches cs v)) (h1 : shift [b0] = 1) :
    ∃ r, run cs v = some r ∧ ∃ s ∈ b0, (∀ t ∈ b0, t.id ≤ s.id) ∧ r.rows[s.id]? = none := by
  obtain ⟨r, hr, _, _, _, s, hs, hm, hl⟩ := C23_layout_exact cs hc v b0 [] hb hinc
  rw [hb] at hs hm
  refine ⟨r, hr, s, by simpa using hs, fun t ht => hm t (by simpa using ht), ?_⟩
  rw [List.getElem?_eq_none_iff, hl, h1]; simp

/-- **C23** is false of the code, for every such view: the row of a sample of the first batch holds the next sample's payload
whenever the next id is in the same batch. -/
theorem C23_row_of_next (cs : List Call) (hc : ∀ c ∈ cs, c.Valid) (v : Bytes) (b0 : List Sample) (rest : List (List Sample))
    (hb : batches cs v = b0 :: rest) (hinc : Increasing (batches cs v)) (h1 : shift [b0] = 1) (s t : Sample) (_hs : s ∈ b0)
    (ht : t ∈ b0) (hst : t.id = s.id + 1) : ∃ r, run cs v = some r ∧ r.rows[s.id]? = some t.data := by
  obtain ⟨r, hr, h2, _⟩ := C23_layout_exact cs hc v b0 rest hb hinc
  refine ⟨r, hr, ?_⟩
  have := (h2 t ht).2
  rw [h1, hst, Nat.add_sub_cancel] at this
  exact this

/-- A call with one metrics and one logs sample, ids 1 and 2, in the hour view of the epoch. -/
def witCall : Call where
  samples := [{ id := 1, data := .metrics [] }, { id := 2, data := .logs [] }]
  order := (groupViews [{ id := 1, data := .metrics [] }, { id := 2, data := .logs [] }] []).getD []
  commits := 4

theorem witCall_valid : witCall.Valid := by
  refine ⟨fun s hs => ?_, witCall.order, ?_, List.Perm.refl _⟩
  · simp only [witCall, List.mem_cons, List.not_mem_nil, or_false] at hs
    rcases hs with rfl | rfl <;> decide
  · have : (groupViews witCall.samples []).isSome = true := by decide +kernel
    obtain ⟨m, hm⟩ := Option.isSome_iff_exists.1 this
    rw [hm]
    have : witCall.order = (groupViews witCall.samples []).getD [] := rfl
    rw [this, hm]; rfl

/-- `std_1970`. -/
def witView : Bytes := [115, 116, 100, 95, 49, 57, 55, 48]

/-- **C23** refuted with a witness: after one committed batch with samples 1 and 2, row 1 holds sample 2, and row 2 does not
exist. -/
theorem C23_refuted : ∃ (cs : List Call) (v : Bytes) (r : VRec) (s t : Sample), (∀ c ∈ cs, c.Valid) ∧ run cs v = some r ∧
    s ∈ cs.flatMap (·.samples) ∧ t ∈ cs.flatMap (·.samples) ∧ r.rows[s.id]? = some t.data ∧ s.data ≠ t.data ∧
    r.rows[t.id]? = none := by
  refine ⟨[witCall], witView, { rows := [.metrics [], .logs []], metrics := [1], traces := [], logs := [2] },
    { id := 1, data := .metrics [] }, { id := 2, data := .logs [] }, by simp [witCall_valid], by decide +kernel,
    by simp [witCall], by simp [witCall], by decide +kernel, by decide +kernel, by decide +kernel⟩

/-! ## C24 -/

theorem readRows_ok {k : Int} {rows : List Data} : ∀ {is : List Nat} {l : List (Nat × Data)}, readRows k rows is = .ok l →
    l.map (·.1) = is ∧ ∀ e ∈ l, ∃ d, rows[e.1]? = some d ∧ e.2 = project k d := by
  intro is
  induction is with
  | nil => intro l h; simp only [readRows, Read.ok.injEq] at h; subst h; simp
  | cons i is ih =>
    intro l h
    unfold readRows at h
    split at h
    · cases h
    · rename_i d hd
      cases hl' : readRows k rows is with
      | ok l' =>
        rw [hl'] at h
        simp only [Read.ok.injEq] at h
        subst h
        obtain ⟨h1, h2⟩ := ih hl'
        refine ⟨by simp [h1], fun e he => ?_⟩
        rcases List.mem_cons.1 he with rfl | he
        · exact ⟨d, hd, rfl⟩
        · exact h2 e he
      | err => rw [hl'] at h; cases h
      | outOfRange => rw [hl'] at h; cases h

theorem readRows_total {k : Int} {rows : List Data} : ∀ {is : List Nat}, (∀ i ∈ is, i < rows.length) →
    ∃ l, readRows k rows is = .ok l := by
  intro is
  induction is with
  | nil => exact fun _ => ⟨[], rfl⟩
  | cons i is ih =>
    intro h
    obtain ⟨l, hl⟩ := ih (fun j hj => h j (by simp [hj]))
    have hi := h i (by simp)
    have : rows[i]? = some rows[i] := List.getElem?_eq_getElem hi
    exact ⟨_, by unfold readRows; rw [this, hl]⟩

/-- What a successful read of one view hands out. -/
theorem readView_ok {f : Frame} {fault : Bytes → Bool} {k : Int} {w : Bm} {v : Bytes} {l : List (Nat × Data)}
    (h : readView f fault k w v = .ok l) :
    (∀ e ∈ l, ∃ r d, f v = some r ∧ e.1 ∈ r.set k ∧ e.1 ∈ w ∧ r.rows[e.1]? = some d ∧ e.2 = project k d) ∧
    ∀ r, f v = some r → ∀ i ∈ r.set k, i ∈ w → i ∈ l.map (·.1) := by
  unfold readView at h
  split at h
  · cases h
  · split at h
    · rename_i hv
      simp only [Read.ok.injEq] at h
      subst h
      refine ⟨by simp, fun r hr => ?_⟩
      rw [hv] at hr; cases hr
    · rename_i r hr
      split at h
      · rename_i hand
        simp only [Read.ok.injEq] at h
        subst h
        refine ⟨by simp, fun r' hr' i hi hw => ?_⟩
        rw [hr] at hr'; cases hr'
        have := Bm.mem_and.2 ⟨hi, hw⟩
        rw [hand] at this; simp at this
      · obtain ⟨h1, h2⟩ := readRows_ok h
        refine ⟨fun e he => ?_, fun r' hr' i hi hw => ?_⟩
        · obtain ⟨d, hd, hp⟩ := h2 e he
          have : e.1 ∈ (r.set k).and w := h1 ▸ List.mem_map_of_mem he
          rw [Bm.mem_and] at this
          exact ⟨r, d, hr, this.1, this.2, hd, hp⟩
        · rw [hr] at hr'; cases hr'
          rw [h1]; exact Bm.mem_and.2 ⟨hi, hw⟩

theorem unmarshal_ok {f : Frame} {fault : Bytes → Bool} {k : Int} {w : Bm} : ∀ {vs : List Bytes} {l : List (Nat × Data)},
    unmarshal f fault k w vs = .ok l →
    (∀ e ∈ l, ∃ v ∈ vs, ∃ r d, f v = some r ∧ e.1 ∈ r.set k ∧ e.1 ∈ w ∧ r.rows[e.1]? = some d ∧ e.2 = project k d) ∧
    ∀ v ∈ vs, ∀ r, f v = some r → ∀ i ∈ r.set k, i ∈ w → i ∈ l.map (·.1) := by
  intro vs
  induction vs with
  | nil => intro l h; simp only [unmarshal, Read.ok.injEq] at h; subst h; simp
  | cons v vs ih =>
    intro l h
    unfold unmarshal at h
    cases h1 : readView f fault k w v with
    | ok l1 =>
      rw [h1] at h
      simp only [] at h
      cases h2 : unmarshal f fault k w vs with
      | ok l2 =>
        rw [h2] at h
        simp only [Read.ok.injEq] at h
        subst h
        obtain ⟨a1, a2⟩ := readView_ok h1
        obtain ⟨b1, b2⟩ := ih h2
        refine ⟨fun e he => ?_, fun v' hv' r hr i hi hw => ?_⟩
        · rcases List.mem_append.1 he with he | he
          · obtain ⟨r, d, h⟩ := a1 e he; exact ⟨v, by simp, r, d, h⟩
          · obtain ⟨v', hv', r, d, h⟩ := b1 e he; exact ⟨v', by simp [hv'], r, d, h⟩
        · rw [List.map_append]
          rcases List.mem_cons.1 hv' with rfl | hv'
          · exact List.mem_append_left _ (a2 r hr i hi hw)
          · exact List.mem_append_right _ (b2 v' hv' r hr i hi hw)
      | err => rw [h2] at h; cases h
      | outOfRange => rw [h2] at h; cases h
    | err => rw [h1] at h; cases h
    | outOfRange => rw [h1] at h; cases h

/-- **C24**: after every history, a successful read of a signal hands out exactly the rows that were requested and that were
appended as that signal to one of the views. -/
theorem C24_reads_requested_kind (cs : List Call) (hc : ∀ c ∈ cs, c.Valid) (fault : Bytes → Bool) (k : Int) (w : Bm)
    (vs : List Bytes) (l : List (Nat × Data)) (h : unmarshal (run cs) fault k w vs = .ok l) (i : Nat) :
    i ∈ l.map (·.1) ↔ i ∈ w ∧ ∃ v ∈ vs, ∃ s ∈ (batches cs v).flatten, s.id = i ∧ s.data.signal = some k := by
  obtain ⟨h1, h2⟩ := unmarshal_ok h
  constructor
  · intro hi
    obtain ⟨e, he, rfl⟩ := List.mem_map.1 hi
    obtain ⟨v, hv, r, d, hr, hs, hw, _, _⟩ := h1 e he
    rw [run_view cs hc] at hr
    obtain ⟨s, hs1, hs2, hs3⟩ := (mem_set_build _ k e.1 r hr).1 hs
    exact ⟨hw, v, hv, s, hs1, hs2.symm, hs3⟩
  · rintro ⟨hw, v, hv, s, hs1, hs2, hs3⟩
    have hb : (build (batches cs v)).isSome := build_isSome.2 (fun e => by rw [e] at hs1; simp at hs1)
    obtain ⟨r, hr⟩ := Option.isSome_iff_exists.1 hb
    exact h2 v hv r (by rw [run_view cs hc]; exact hr) i ((mem_set_build _ k i r hr).2 ⟨s, hs1, hs2.symm, hs3⟩) hw

/-- **C24**: views that were never written are read as empty, without error. -/
theorem C24_missing_view (cs : List Call) (hc : ∀ c ∈ cs, c.Valid) (k : Int) (w : Bm) (v : Bytes) (hv : batches cs v = []) :
    readView (run cs) (fun _ => false) k w v = .ok [] := by
  unfold readView
  rw [run_view cs hc, hv]
  rfl

/-- **C24**: appending samples none of which belongs to view `v` does not change what view `v` holds. -/
theorem C24_other_views_untouched (cs : List Call) (c : Call) (hc : c.Valid) (v : Bytes)
    (hv : ∀ s ∈ c.samples, ¬ IsView (toInt64 s.minTs) v) : run (cs ++ [c]) v = run cs v := by
  rw [run_snoc, step_view hc, if_neg]
  intro h
  apply inView_ne_nil hc h
  unfold Call.inView
  simp only [List.filter_eq_nil_iff, decide_eq_true_eq]
  exact hv

theorem project_eq {d : Data} {k : Int} (h : d.signal = some k) : project k d = d := by
  cases d <;> simp [Data.signal] at h <;> simp [project, ← h]

/-- **C24** and **C23** together: if every view that is read starts with sample 0, reading does not fail and hands out, for
each row, the payload of the sample with that id. -/
theorem C24_payloads_partial (cs : List Call) (hc : ∀ c ∈ cs, c.Valid) (k : Int) (w : Bm) (vs : List Bytes)
    (hv : ∀ v ∈ vs, Increasing (batches cs v) ∧ shift (batches cs v) = 0) :
    ∃ l, unmarshal (run cs) (fun _ => false) k w vs = .ok l ∧
      ∀ e ∈ l, ∃ v ∈ vs, ∃ s ∈ (batches cs v).flatten, s.id = e.1 ∧ s.data = e.2 ∧ s.data.signal = some k := by
  have htot : ∃ l, unmarshal (run cs) (fun _ => false) k w vs = .ok l := by
    induction vs with
    | nil => exact ⟨[], rfl⟩
    | cons v vs ih =>
      obtain ⟨l2, h2⟩ := ih (fun x hx => hv x (by simp [hx]))
      have h1 : ∃ l1, readView (run cs) (fun _ => false) k w v = .ok l1 := by
        by_cases hb : batches cs v = []
        · exact ⟨[], C24_missing_view cs hc k w v hb⟩
        · obtain ⟨r, hr, hrow, _⟩ := C23_row_is_id_partial cs hc v (hv v (by simp)).1 (hv v (by simp)).2 hb
          unfold readView
          simp only [Bool.false_eq_true, if_false, hr]
          split
          · exact ⟨[], rfl⟩
          · apply readRows_total
            intro i hi
            have hi := (Bm.mem_and.1 hi).1
            rw [run_view cs hc] at hr
            obtain ⟨s, hs1, hs2, _⟩ := (mem_set_build _ k i r hr).1 hi
            have := hrow s hs1
            rw [hs2]; exact (List.getElem?_eq_some_iff.1 this).1
      obtain ⟨l1, h1⟩ := h1
      exact ⟨l1 ++ l2, by unfold unmarshal; rw [h1, h2]⟩
  obtain ⟨l, hl⟩ := htot
  refine ⟨l, hl, fun e he => ?_⟩
  obtain ⟨v, hvm, r, d, hr, hs, hw, hd, hp⟩ := (unmarshal_ok hl).1 e he
  have hb : batches cs v ≠ [] := by
    rw [run_view cs hc] at hr
    exact build_isSome.1 (by rw [hr]; rfl)
  obtain ⟨r', hr', hrow, _⟩ := C23_row_is_id_partial cs hc v (hv v hvm).1 (hv v hvm).2 hb
  rw [hr] at hr'; cases hr'
  rw [run_view cs hc] at hr
  obtain ⟨s, hs1, hs2, hs3⟩ := (mem_set_build _ k e.1 r hr).1 hs
  have := hrow s hs1
  rw [← hs2, hd] at this
  cases this
  exact ⟨v, hvm, s, hs1, hs2.symm, by rw [hp, project_eq hs3], hs3⟩

/-- A call with samples 0 and 3 meets the hypotheses: sample 0 comes first. -/
def goodCall : Call where
  samples := [{ id := 0, data := .metrics [] }, { id := 3, data := .logs [] }]
  order := (groupViews [{ id := 0, data := .metrics [] }, { id := 3, data := .logs [] }] []).getD []
  commits := 4

theorem goodCall_valid : goodCall.Valid := by
  refine ⟨fun s hs => ?_, goodCall.order, ?_, List.Perm.refl _⟩
  · simp only [goodCall, List.mem_cons, List.not_mem_nil, or_false] at hs
    rcases hs with rfl | rfl <;> decide
  · have : (groupViews goodCall.samples []).isSome = true := by decide +kernel
    obtain ⟨m, hm⟩ := Option.isSome_iff_exists.1 this
    rw [hm]
    have : goodCall.order = (groupViews goodCall.samples []).getD [] := rfl
    rw [this, hm]; rfl

theorem isView_epoch : IsView (toInt64 0) witView := by
  obtain ⟨vs, h1, h2, _⟩ := sampleViews_spec (ts := 0) (by decide)
  rw [← h2]
  have : (sampleViews 0).any (fun vs => decide (witView ∈ vs)) = true := by decide +kernel
  rw [h1] at this
  simpa using this

theorem goodCall_batches : batches [goodCall] witView = [goodCall.samples] := by
  have h1 : goodCall.Committed witView := by decide +kernel
  have h2 : goodCall.inView witView = goodCall.samples := by
    unfold Call.inView
    rw [List.filter_eq_self]
    intro s hs
    simp only [goodCall, List.mem_cons, List.not_mem_nil, or_false] at hs
    rcases hs with rfl | rfl <;> simp [isView_epoch]
  simp [batches, h1, h2]

example : (∀ c ∈ [goodCall], c.Valid) ∧ Increasing (batches [goodCall] witView) ∧ shift (batches [goodCall] witView) = 0 ∧
    batches [goodCall] witView ≠ [] := by
  rw [goodCall_batches]
  refine ⟨by simp [goodCall_valid], by unfold Increasing; decide +kernel, by decide +kernel, by simp⟩

/-- The read of that view hands out sample 3 as row 3. -/
example : unmarshal (run [goodCall]) (fun _ => false) Res.logs [0, 3, 9] [witView] = .ok [(3, .logs [])] := by decide +kernel

theorem witCall_batches : batches [witCall] witView = [witCall.samples] := by
  have h1 : witCall.Committed witView := by decide +kernel
  have h2 : witCall.inView witView = witCall.samples := by
    unfold Call.inView
    rw [List.filter_eq_self]
    intro s hs
    simp only [witCall, List.mem_cons, List.not_mem_nil, or_false] at hs
    rcases hs with rfl | rfl <;> simp [isView_epoch]
  simp [batches, h1, h2]

/-- The hypotheses of `C23_newest_row_missing` and `C23_row_of_next` are met. -/
example : (∀ c ∈ [witCall], c.Valid) ∧ Increasing (batches [witCall] witView) ∧ batches [witCall] witView = [witCall.samples] ∧
    shift [witCall.samples] = 1 := by
  rw [witCall_batches]
  refine ⟨by simp [witCall_valid], by unfold Increasing; decide +kernel, rfl, by decide +kernel⟩

end Verif.Df
