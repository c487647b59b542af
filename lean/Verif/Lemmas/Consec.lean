import Verif.Props.Service
/-! Without restarts, samples are numbered 0, 1, 2, … -/
namespace Verif.Sv
open St (Flush Outcome)
variable {σ : Type} {D : Dict σ} {bw : Nat} {P : Data → Prop}

def Consec (s : Svc σ) (es : List (Event σ)) : Prop :=
  ∃ m, (allOf s es).map (·.id) = List.range m ∧
    (((∀ t d n, s.calls t ≠ .numbered d n) ∧ s.seq.seq.next = m) ∨ ∃ t d, s.calls t = .numbered d m ∧ s.seq.seq.next = m + 1)

theorem Consec.same {s s' : Svc σ} {es es' : List (Event σ)} (h : Consec s es) (ha : allOf s' es' = allOf s es) (hn : s'.seq.seq.next = s.seq.seq.next)
    (hc : ∀ t d n, s'.calls t = .numbered d n ↔ s.calls t = .numbered d n) : Consec s' es' := by
  obtain ⟨m, h1, h2⟩ := h
  refine ⟨m, by rw [ha]; exact h1, ?_⟩
  rw [hn]
  rcases h2 with ⟨a, b⟩ | ⟨t, d, a, b⟩
  · exact .inl ⟨fun t d n h => a t d n ((hc t d n).1 h), b⟩
  · exact .inr ⟨t, d, (hc t d m).2 a, b⟩

theorem numbered_set {s : Svc σ} {t : Nat} {p : Pc} (h1 : ∀ d n, s.calls t ≠ .numbered d n) (h2 : ∀ d n, p ≠ .numbered d n) :
    ∀ u d n, (setCall s t p).calls u = .numbered d n ↔ s.calls u = .numbered d n := by
  intro u d n
  rw [calls_set]
  split
  · rename_i e
    subst e
    exact ⟨fun h => absurd h (h2 d n), fun h => absurd h (h1 d n)⟩
  · exact Iff.rfl

theorem step_consec {s s' : Svc σ} {es e : List (Event σ)} {k : Nat} {l : Label σ} (hpos : 0 < bw) (hi : Inv P bw s es k) (hk : k + bw < 2 ^ 64)
    (hr : ∀ st c, l ≠ .restart st c) (hc : Consec s es) (h : step D bw s l = some (s', e)) : Consec s' (es ++ e) := by
  obtain ⟨h', -⟩ := step_no_restart hr h
  cases l with
  | call t d =>
    simp only [live] at h'
    split at h' <;> cases h'
    rename_i ho
    rw [List.append_nil]
    exact hc.same rfl rfl (numbered_set (by simp [ho]) (by simp))
  | lock t =>
    simp only [live] at h'
    split at h' <;> cases h'
    rename_i d ho hl
    rw [List.append_nil]
    exact hc.same rfl rfl (numbered_set (s := { s with lock := some (.call t) }) (by simp [ho]) (by simp))
  | number t =>
    simp only [live] at h'
    split at h'
    · rename_i d ho
      obtain ⟨w, a, b, -⟩ := Sq.number_step hpos hi.seq hk
      rw [a] at h'
      cases h'
      rw [List.append_nil]
      obtain ⟨m, h1, h2⟩ := hc
      refine ⟨m, h1, .inr ⟨t, d, ?_, ?_⟩⟩
      · rw [calls_set, if_pos rfl]
        rcases h2 with ⟨-, h2⟩ | ⟨u, d', h2, -⟩
        · rw [h2]
        · have e1 := hi.lock t (by rw [ho]; trivial)
          have e2 := hi.lock u (by rw [h2]; trivial)
          rw [e1] at e2; cases e2
          rw [ho] at h2; cases h2
      · show w.seq.next = m + 1
        rcases h2 with ⟨-, h2⟩ | ⟨u, d', h2, -⟩
        · omega
        · have e1 := hi.lock t (by rw [ho]; trivial)
          have e2 := hi.lock u (by rw [h2]; trivial)
          rw [e1] at e2; cases e2
          rw [ho] at h2; cases h2
    · cases h'
  | append t =>
    simp only [live] at h'
    split at h' <;> cases h'
    rename_i d n ho
    rw [List.append_nil]
    have hl := hi.lock t (by rw [ho]; trivial)
    have hb := buffered_append (s := s) { id := n, data := d } t (.appended d)
    have hh : inHand (setCall (setList s s.data (s.lists s.data ++ [{ id := n, data := d }])) t (.appended d)) = inHand s :=
      inHand_eq rfl fun ls h => if_neg (hi.hand ls h).2
    have ha : allOf (setCall (setList s s.data (s.lists s.data ++ [{ id := n, data := d }])) t (.appended d)) es = allOf s es ++ [{ id := n, data := d }] := by
      unfold allOf; rw [hb, hh, List.append_assoc, List.append_assoc, List.append_assoc]
    obtain ⟨m, h1, h2⟩ := hc
    rcases h2 with ⟨h2, -⟩ | ⟨u, d', h2, h3⟩
    · exact absurd ho (h2 t d n)
    · have e2 := hi.lock u (by rw [h2]; trivial)
      rw [hl] at e2; cases e2
      rw [ho] at h2; cases h2
      refine ⟨n + 1, ?_, .inl ⟨fun v d' m h => ?_, h3⟩⟩
      · rw [ha, List.map_append, h1, List.range_succ]; rfl
      · rw [calls_set] at h; split at h
        · cases h
        · rename_i hne
          have h2 := hi.lock v (by show busy (s.calls v); rw [show s.calls v = _ from h]; trivial)
          rw [hl] at h2; cases h2; exact absurd rfl hne
  | ret t =>
    simp only [live] at h'
    split at h' <;> cases h'
    rename_i d ho
    refine hc.same ?_ rfl (numbered_set (s := { s with lock := none }) (by simp [ho]) (by simp))
    unfold allOf; rw [flushedOf_append]; show flushedOf es ++ [] ++ _ ++ _ = _; rw [List.append_nil]; rfl
  | tick =>
    simp only [live] at h'
    split at h' <;> cases h'
    rename_i hf
    rw [List.append_nil]
    refine hc.same ?_ rfl fun _ _ _ => Iff.rfl
    simp only [allOf, inHand, hf]; rfl
  | flock =>
    simp only [live] at h'
    split at h' <;> cases h'
    rename_i hf
    rw [List.append_nil]
    refine hc.same ?_ rfl fun _ _ _ => Iff.rfl
    simp only [allOf, inHand, hf.1]; rfl
  | swap pick =>
    simp only [live] at h'
    split at h' <;> cases h'
    rename_i hf
    rw [List.append_nil, get_new hi.pool]
    have hd := hi.data
    refine hc.same ?_ rfl fun _ _ _ => Iff.rfl
    have h1 : inHand ({ setList { s with count := s.count + 1 } s.count [] with data := s.count, flusher := .swapped s.data } : Svc σ) = buffered s := by
      show (if s.data = s.count then [] else s.lists s.data) = _
      rw [if_neg (by omega)]; rfl
    have h2 : buffered ({ setList { s with count := s.count + 1 } s.count [] with data := s.count, flusher := .swapped s.data } : Svc σ) = [] := by
      show (if s.count = s.count then [] else _) = _
      rw [if_pos rfl]
    have h3 : inHand s = [] := by unfold inHand; rw [hf]
    unfold allOf; rw [h1, h2, h3]; simp
  | funlock =>
    simp only [live] at h'
    split at h' <;> cases h'
    rename_i ls hf
    rw [List.append_nil]
    refine hc.same ?_ rfl fun _ _ _ => Iff.rfl
    simp only [allOf, inHand, hf]; rfl
  | save fl =>
    simp only [live] at h'
    split at h' <;> cases h'
    rename_i ls hf
    refine hc.same ?_ rfl fun _ _ _ => Iff.rfl
    have h1 : inHand s = s.lists ls := by unfold inHand; rw [hf]
    unfold allOf
    rw [flushedOf_append, h1]
    show flushedOf es ++ (s.lists ls ++ []) ++ [] ++ _ = _
    simp; rfl
  | release =>
    simp only [live] at h'
    split at h' <;> cases h'
    rename_i ls hf
    rw [List.append_nil]
    refine hc.same ?_ rfl fun _ _ _ => Iff.rfl
    have h1 : inHand s = [] := by unfold inHand; rw [hf]
    have hne := (hi.hand ls (.inr (.inr hf))).2
    have hb : buffered ({ release s ls with flusher := .waiting } : Svc σ) = buffered s := by
      show (if s.data = ls then [] else s.lists s.data) = _
      rw [if_neg (Ne.symm hne)]; rfl
    unfold allOf; rw [hb, h1]; rfl
  | cancel =>
    simp only [live] at h'
    cases h'
    rw [List.append_nil]
    exact hc.same rfl rfl fun _ _ _ => Iff.rfl
  | stop =>
    simp only [live] at h'
    split at h' <;> cases h'
    rename_i hf
    rw [List.append_nil]
    refine hc.same ?_ rfl fun _ _ _ => Iff.rfl
    simp only [allOf, inHand, hf.1]; rfl
  | restart st c => exact absurd rfl (hr st c)

theorem run_consec (hpos : 0 < bw) : ∀ (ls : List (Label σ)) {s s' : Svc σ} {es e : List (Event σ)} {k : Nat},
    Inv (fun _ => True) bw s es k → k + (ls.map (cost bw)).sum + bw < 2 ^ 64 → (∀ st c, .restart st c ∉ ls) →
    run D bw s ls = some (s', e) → Consec s es → Consec s' (es ++ e) := by
  intro ls
  induction ls with
  | nil => intro s s' es e k _ _ _ h ha; cases h; simpa using ha
  | cons l ls ih =>
    intro s s' es e k hi hk hr h ha
    simp only [List.map_cons, List.sum_cons] at hk
    simp only [run] at h
    split at h
    · cases h
    · rename_i s1 e1 hstep
      split at h
      · cases h
      · rename_i s2 e2 hrun
        cases h
        have hi' := step_inv hpos hi (by omega) (fun _ _ _ => trivial) hstep
        rw [← List.append_assoc]
        exact ih hi' (by omega) (fun st c h => hr st c (List.mem_cons_of_mem _ h)) hrun
          (step_consec hpos hi (by omega) (fun st c e => hr st c (e ▸ List.mem_cons_self)) ha hstep)

/-- **C42**: in the first process, samples get the ids 0, 1, 2, … without gaps, in the order of their answers. -/
theorem C42_consecutive (hpos : 0 < bw) {db : KV} (hdb : db Sq.seqKey = none) (st : σ) (ls : List (Label σ)) {s0 s : Svc σ} {es : List (Event σ)}
    (h0 : init bw st db = some s0) (h : run D bw s0 ls = some (s, es)) (hb : used bw ls + bw < 2 ^ 64) (hr : ∀ st c, .restart st c ∉ ls) :
    ∃ m, (flushedOf es ++ inHand s ++ buffered s).map (·.id) = List.range m := by
  obtain ⟨s', h1, h2, -⟩ := init_inv (P := fun _ => True) (bw := bw) (st := st) hdb
  rw [h0] at h1; cases h1
  have hc : Consec s0 [] := by
    unfold init getSequence Sequence.updateLease at h0
    rw [hdb] at h0
    cases h0
    exact ⟨0, rfl, .inl ⟨fun _ _ _ h => (nomatch h), rfl⟩⟩
  obtain ⟨m, hm, -⟩ := run_consec hpos ls h2 (by rw [used_eq]; omega) hr h hc
  exact ⟨m, hm⟩

end Verif.Sv
