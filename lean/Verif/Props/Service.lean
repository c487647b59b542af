import Verif.Lemmas.Service
import Verif.Props.Store2
/-!
# C42, C43: accepted samples
-/
namespace Verif.Sv
open St (Flush Outcome)
variable {σ : Type} {D : Dict σ} {bw : Nat}

/-- The ids a schedule can use: one for each export and one lease for each start. -/
def used (bw : Nat) (ls : List (Label σ)) : Nat := numbers ls + restarts ls * bw

theorem used_eq (bw : Nat) (ls : List (Label σ)) : (ls.map (cost bw)).sum = used bw ls := by
  unfold used numbers restarts
  induction ls with
  | nil => simp
  | cons l ls ih =>
    rw [List.map_cons, List.sum_cons, ih]
    cases l <;> simp [cost, Nat.add_mul] <;> omega

/-- **C42.** Whatever the schedule of exports, flushes, failures, shutdowns, crashes and restarts: the samples handed to the
store so far, in the hands of the flusher and waiting, in this order, have strictly increasing ids (so none is flushed twice);
and those of the running process are, in this order, exactly the payloads of the requests it has answered with success
(and of at most one whose answer is on its way). The bound keeps ids below 2^64. -/
theorem C42_exactly_once_in_order (hpos : 0 < bw) {db : KV} (hdb : db Sq.seqKey = none) (st : σ) (ls : List (Label σ)) {s0 s : Svc σ} {es : List (Event σ)}
    (h0 : init bw st db = some s0) (h : run D bw s0 ls = some (s, es)) (hb : used bw ls + bw < 2 ^ 64) :
    (flushedOf es ++ inHand s ++ buffered s).Pairwise (fun a b => a.id < b.id) ∧
    ackedOf (lifeOf es) ++ unanswered s = (flushedOf (lifeOf es) ++ inHand s ++ buffered s).map (·.data) := by
  obtain ⟨s', h1, h2, -⟩ := init_inv (P := fun _ => True) (bw := bw) (st := st) hdb
  rw [h0] at h1; cases h1
  have := run_inv hpos ls h2 (by rw [used_eq]; omega) (fun _ _ _ => trivial) h
  exact ⟨this.ids, this.acks⟩

/-- At most one answer is on its way. -/
theorem unanswered_le (s : Svc σ) : (unanswered s).length ≤ 1 := by
  unfold unanswered
  split
  · split <;> simp
  · simp

/-! ## Runs in pieces -/

theorem run_append : ∀ (a b : List (Label σ)) {s s' : Svc σ} {e : List (Event σ)}, run D bw s (a ++ b) = some (s', e) →
    ∃ s1 e1 e2, run D bw s a = some (s1, e1) ∧ run D bw s1 b = some (s', e2) ∧ e = e1 ++ e2 := by
  intro a
  induction a with
  | nil => intro b s s' e h; exact ⟨s, [], e, rfl, h, rfl⟩
  | cons l a ih =>
    intro b s s' e h
    simp only [List.cons_append, run] at h ⊢
    split at h
    · cases h
    · rename_i s1 e1 h1
      split at h
      · cases h
      · rename_i s2 e2 h2
        cases h
        obtain ⟨s3, e3, e4, h3, h4, rfl⟩ := ih b h2
        exact ⟨s3, e1 ++ e3, e4, by simp [h3], h4, by simp⟩

theorem run_join {a b : List (Label σ)} {s s1 s2 : Svc σ} {e1 e2 : List (Event σ)} (h1 : run D bw s a = some (s1, e1)) (h2 : run D bw s1 b = some (s2, e2)) :
    run D bw s (a ++ b) = some (s2, e1 ++ e2) := by
  induction a generalizing s e1 with
  | nil => cases h1; exact h2
  | cons l a ih =>
    simp only [run] at h1
    split at h1
    · cases h1
    · rename_i s3 e3 h3
      split at h1
      · cases h1
      · rename_i s4 e4 h4
        cases h1
        simp only [List.cons_append, run, h3, ih h4, List.append_assoc]

theorem reachable_inv {P : Data → Prop} (hpos : 0 < bw) {db : KV} (hdb : db Sq.seqKey = none) (st : σ) {ls : List (Label σ)} {s0 s : Svc σ} {es : List (Event σ)}
    (h0 : init bw st db = some s0) (h : run D bw s0 ls = some (s, es)) (hb : used bw ls + bw < 2 ^ 64) (hP : ∀ t d, .call t d ∈ ls → P d) :
    Inv P bw s es (used bw ls) := by
  obtain ⟨s', h1, h2, -⟩ := init_inv (P := P) (bw := bw) (st := st) hdb
  rw [h0] at h1; cases h1
  have := run_inv hpos ls h2 (by rw [used_eq]; omega) hP h
  rw [used_eq] at this
  simpa using this

/-! ## C51: calls can finish -/

/-- What the call of a goroutine was given. -/
def payloadOf : Pc → Option Data
  | .outside => none
  | .entered d | .locked d | .numbered d _ | .appended d => some d

/-- The rest of a call that holds the lock. -/
structure Finishes (D : Dict σ) (bw : Nat) (s : Svc σ) (t : Nat) (ls : List (Label σ)) (d : Data) (s' : Svc σ) : Prop where
  run : run D bw s ls = some (s', [.returned d])
  alive : s'.dead = false
  free : s'.lock = none
  out : s'.calls t = .outside
  others : ∀ u, u ≠ t → s'.calls u = s.calls u
  flusher : s'.flusher = s.flusher
  store : s'.store = s.store

theorem finish_appended {s : Svc σ} {t : Nat} {d : Data} (hd : s.dead = false) (hc : s.calls t = .appended d) :
    ∃ s', Finishes D bw s t [.ret t] d s' := by
  have h : step D bw s (.ret t) = some (setCall { s with lock := none } t .outside, [.returned d]) := by
    simp only [step, live, hc, hd, Bool.false_eq_true, if_false]
  refine ⟨setCall { s with lock := none } t .outside, ⟨by simp only [Sv.run, h, List.append_nil], hd, rfl, ?_, fun u hu => ?_, rfl, rfl⟩⟩
  · rw [calls_set, if_pos rfl]
  · rw [calls_set, if_neg hu]

theorem finish_cons {s s1 s' : Svc σ} {t : Nat} {l : Label σ} {ls : List (Label σ)} {d : Data} (h : step D bw s l = some (s1, []))
    (ho : ∀ u, u ≠ t → s1.calls u = s.calls u) (h1 : s1.flusher = s.flusher) (h2 : s1.store = s.store) (hf : Finishes D bw s1 t ls d s') : Finishes D bw s t (l :: ls) d s' :=
  ⟨by simp only [Sv.run, h, hf.run, List.nil_append], hf.alive, hf.free, hf.out, fun u hu => (hf.others u hu).trans (ho u hu), hf.flusher.trans h1, hf.store.trans h2⟩

theorem finish_numbered {s : Svc σ} {t n : Nat} {d : Data} (hd : s.dead = false) (hc : s.calls t = .numbered d n) :
    ∃ s', Finishes D bw s t [.append t, .ret t] d s' := by
  have h : step D bw s (.append t) = some (setCall (setList s s.data (s.lists s.data ++ [{ id := n, data := d }])) t (.appended d), []) := by
    simp only [step, live, hc, hd, Bool.false_eq_true, if_false]
  obtain ⟨s', hf⟩ := finish_appended (D := D) (bw := bw) (s := setCall (setList s s.data (s.lists s.data ++ [{ id := n, data := d }])) t (.appended d)) (t := t) (d := d)
    hd (by rw [calls_set, if_pos rfl])
  exact ⟨s', finish_cons h (fun u hu => by rw [calls_set, if_neg hu]; rfl) rfl rfl hf⟩

theorem finish_locked {s : Svc σ} {k t : Nat} {d : Data} (hpos : 0 < bw) (hi : Sq.SInv s.seq bw k) (hk : k + bw < 2 ^ 64) (hd : s.dead = false)
    (hc : s.calls t = .locked d) : ∃ s', Finishes D bw s t [.number t, .append t, .ret t] d s' := by
  obtain ⟨w, a, b, c⟩ := Sq.number_step hpos hi hk
  have h : step D bw s (.number t) = some (setCall { s with seq := w } t (.numbered d s.seq.seq.next), []) := by
    simp only [step, live, hc, hd, a, Bool.false_eq_true, if_false]
  obtain ⟨s', hf⟩ := finish_numbered (D := D) (bw := bw) (s := setCall { s with seq := w } t (.numbered d s.seq.seq.next)) (t := t) (d := d) (n := s.seq.seq.next)
    hd (by rw [calls_set, if_pos rfl])
  exact ⟨s', finish_cons h (fun u hu => by rw [calls_set, if_neg hu]) rfl rfl hf⟩

/-- Steps of goroutines that are already running. -/
def Inner (l : Label σ) : Prop := (∀ u x, l ≠ .call u x) ∧ ∀ x c, l ≠ .restart x c

theorem finish_busy {s : Svc σ} {k t : Nat} (hpos : 0 < bw) (hi : Sq.SInv s.seq bw k) (hk : k + bw < 2 ^ 64) (hd : s.dead = false)
    (hc : busy (s.calls t)) : ∃ ls d s', (ls.length ≤ 3 ∧ (∀ l ∈ ls, Inner l) ∧ (ls.map (cost bw)).sum ≤ 1) ∧ payloadOf (s.calls t) = some d ∧ Finishes D bw s t ls d s' := by
  cases hp : s.calls t with
  | outside => rw [hp] at hc; exact hc.elim
  | entered d => rw [hp] at hc; exact hc.elim
  | locked d =>
    obtain ⟨s', h⟩ := finish_locked (D := D) hpos hi hk hd hp
    exact ⟨_, d, s', ⟨by simp, by simp [Inner], by simp [cost]⟩, rfl, h⟩
  | numbered d n =>
    obtain ⟨s', h⟩ := finish_numbered (D := D) (bw := bw) hd hp
    exact ⟨_, d, s', ⟨by simp, by simp [Inner], by simp [cost]⟩, rfl, h⟩
  | appended d =>
    obtain ⟨s', h⟩ := finish_appended (D := D) (bw := bw) hd hp
    exact ⟨_, d, s', ⟨by simp, by simp [Inner], by simp [cost]⟩, rfl, h⟩

theorem finish_entered {s : Svc σ} {k t : Nat} {d : Data} (hpos : 0 < bw) (hi : Sq.SInv s.seq bw k) (hk : k + bw < 2 ^ 64) (hd : s.dead = false)
    (hc : s.calls t = .entered d) (hl : s.lock = none) : ∃ s', Finishes D bw s t [.lock t, .number t, .append t, .ret t] d s' := by
  have h : step D bw s (.lock t) = some (setCall { s with lock := some (.call t) } t (.locked d), []) := by
    simp only [step, live, hc, hl, hd, Bool.false_eq_true, if_false]
  obtain ⟨s', hf⟩ := finish_locked (D := D) (s := setCall { s with lock := some (.call t) } t (.locked d)) (t := t) (d := d) hpos hi hk hd (by rw [calls_set, if_pos rfl])
  exact ⟨s', finish_cons h (fun u hu => by rw [calls_set, if_neg hu]) rfl rfl hf⟩

/-- Whoever holds the lock can give it back in three steps. -/
theorem unlock {s : Svc σ} {es : List (Event σ)} {k t : Nat} {d : Data} (hpos : 0 < bw) (hi : Inv (fun _ => True) bw s es k) (hk : k + bw < 2 ^ 64) (hd : s.dead = false)
    (hc : s.calls t = .entered d) : ∃ ls s' e, (ls.length ≤ 3 ∧ (∀ l ∈ ls, Inner l) ∧ (ls.map (cost bw)).sum ≤ 1) ∧ run D bw s ls = some (s', e) ∧ s'.dead = false ∧ s'.lock = none ∧
      s'.calls t = .entered d := by
  cases hl : s.lock with
  | none => exact ⟨[], s, [], by simp, rfl, hd, hl, hc⟩
  | some h =>
    cases h with
    | call u =>
      have hb := hi.holder u hl
      obtain ⟨ls, d', s', h1, h2, h3⟩ := finish_busy (D := D) hpos hi.seq hk hd hb
      refine ⟨ls, s', _, h1, h3.run, h3.alive, h3.free, ?_⟩
      rw [h3.others t (fun e => by subst e; rw [hc] at hb; exact hb)]; exact hc
    | flusher =>
      have hfun : ∀ {s : Svc σ} {x : Nat}, s.dead = false → s.flusher = .swapped x → s.calls t = .entered d →
          ∃ s', run D bw s [.funlock] = some (s', []) ∧ s'.dead = false ∧ s'.lock = none ∧ s'.calls t = .entered d := by
        intro s x hd hf hc
        refine ⟨{ s with flusher := .unlocked x, lock := none }, ?_, hd, rfl, hc⟩
        simp only [run, step, live, hf, hd, Bool.false_eq_true, if_false, List.append_nil]
      rcases hi.fholder hl with hf | ⟨x, hf⟩
      · obtain ⟨s', h1, h2, h3, h4⟩ := hfun (s := { (get s none).2 with data := (get s none).1, flusher := .swapped s.data }) (x := s.data) hd rfl hc
        refine ⟨[.swap none, .funlock], s', [], ⟨by simp, by simp [Inner], by simp [cost]⟩, ?_, h2, h3, h4⟩
        have hs : step D bw s (.swap none) = some ({ (get s none).2 with data := (get s none).1, flusher := .swapped s.data }, []) := by
          simp only [step, live, hf, hd, Bool.false_eq_true, if_false, if_true]
        exact run_join (a := [.swap none]) (b := [.funlock]) (e1 := []) (e2 := []) (by simp only [run, hs, List.append_nil]) h1
      · obtain ⟨s', h1, h2, h3, h4⟩ := hfun hd hf hc
        exact ⟨[.funlock], s', [], ⟨by simp, by simp [Inner], by simp [cost]⟩, h1, h2, h3, h4⟩

/-- **C51.** No deadlock and no starvation by the service itself: in every reachable state of a living process, whatever the other
goroutines and the flusher are doing, every export call in progress can be brought to its successful answer in at most seven
steps of the goroutines that are already running. -/
theorem C51_calls_can_finish (hpos : 0 < bw) {db : KV} (hdb : db Sq.seqKey = none) (st : σ) {ls : List (Label σ)} {s0 s : Svc σ} {es : List (Event σ)}
    (h0 : init bw st db = some s0) (h : run D bw s0 ls = some (s, es)) (hb : used bw ls + 1 + bw < 2 ^ 64) (hd : s.dead = false) (t : Nat) (d : Data)
    (ht : payloadOf (s.calls t) = some d) :
    ∃ ls' s' es', ls'.length ≤ 7 ∧ (∀ l ∈ ls', (∀ u x, l ≠ .call u x) ∧ ∀ x c, l ≠ .restart x c) ∧ run D bw s ls' = some (s', es') ∧
      s'.calls t = .outside ∧ .returned d ∈ es' := by
  have hi : Inv (fun _ => True) bw s es _ := reachable_inv hpos hdb st h0 h (by omega) (fun _ _ _ => trivial)
  by_cases hbusy : busy (s.calls t)
  · obtain ⟨ls', d', s', ⟨h1, h2, -⟩, h3, h4⟩ := finish_busy (D := D) hpos hi.seq (by omega) hd hbusy
    rw [ht] at h3; cases h3
    exact ⟨ls', s', _, by omega, h2, h4.run, h4.out, by simp⟩
  · have hc : s.calls t = .entered d := by
      cases hp : s.calls t with
      | outside => rw [hp] at ht; cases ht
      | entered x => rw [hp] at ht; cases ht; rfl
      | locked x => rw [hp] at hbusy; exact absurd trivial hbusy
      | numbered x n => rw [hp] at hbusy; exact absurd trivial hbusy
      | appended x => rw [hp] at hbusy; exact absurd trivial hbusy
    obtain ⟨l1, s1, e1, ⟨h1, h2, h3⟩, h4, h5, h6, h7⟩ := unlock (D := D) hpos hi (by omega) hd hc
    have hi1 := run_inv hpos l1 hi (by omega) (fun _ _ _ => trivial) h4
    obtain ⟨s2, hf⟩ := finish_entered (D := D) hpos hi1.seq (by omega) h5 h7 h6
    refine ⟨l1 ++ [.lock t, .number t, .append t, .ret t], s2, e1 ++ [.returned d], by simp; omega, ?_, run_join h4 hf.run, hf.out, by simp⟩
    intro l hl
    rcases List.mem_append.1 hl with hl | hl
    · exact h2 l hl
    · simp at hl
      rcases hl with rfl | rfl | rfl | rfl <;> simp

/-! ## The history of the store -/

theorem run_snoc (st : σ) (ops : List (St.Op σ)) (op : St.Op σ) : St.run D st (ops ++ [op]) = St.step D (St.run D st ops) op := by
  unfold St.run; rw [List.foldl_append]; rfl

theorem valid_snoc : ∀ (ops : List (St.Op σ)) (s : St.Store σ) (op : St.Op σ), St.Valid D s ops → St.Valid D (ops.foldl (St.step D) s) [op] → St.Valid D s (ops ++ [op]) := by
  intro ops
  induction ops with
  | nil => intro s op _ h; exact h
  | cons o ops ih =>
    intro s op h1 h2
    cases o with
    | flush fl => exact ⟨h1.1, h1.2.1, ih _ op h1.2.2 h2⟩
    | restart st => exact ⟨h1.1, h1.2.1, ih _ op h1.2.2 h2⟩

theorem tag_samples (ok : Bool) : ∀ (r : Int) (ss : List Sample), (St.tag ok r ss).map (·.sample) = ss := by
  intro r ss
  induction ss generalizing r with
  | nil => rfl
  | cons s ss ih => simp [St.tag, ih]

theorem offered_samples : ∀ (ops : List (St.Op σ)) (s : St.Store σ) (r : Int),
    (St.offered D s r ops).map (·.sample) = ops.flatMap fun op => match op with | .flush fl => fl.samples | .restart _ => [] := by
  intro ops
  induction ops with
  | nil => intro s r; rfl
  | cons op ops ih =>
    intro s r
    cases op with
    | flush fl => simp only [St.offered, List.map_append, tag_samples, ih, List.flatMap_cons]
    | restart st => simp only [St.offered, ih, List.flatMap_cons, List.nil_append]

theorem ops_sublist (es : List (Event σ)) :
    ((opsOf es).flatMap fun op => match op with | .flush fl => fl.samples | .restart _ => []).Sublist (flushedOf es) := by
  induction es with
  | nil => exact .slnil
  | cons e es ih =>
    unfold opsOf flushedOf at *
    rw [List.flatMap_cons]
    cases e with
    | returned d => simpa using ih
    | restarted st => simpa using ih
    | flushed fl o =>
      by_cases ho : o = .exit
      · rw [List.filterMap_cons_none (by simp [ho])]
        exact List.Sublist.trans ih (List.sublist_append_right _ _)
      · rw [List.filterMap_cons_some (by simp [ho]; rfl), List.flatMap_cons]
        exact List.Sublist.append_left ih _

theorem opsOf_append (a b : List (Event σ)) : opsOf (a ++ b) = opsOf a ++ opsOf b := by simp [opsOf]

theorem save_exit {s : St.Store σ} {fl : Flush} (h : (St.saveSamples D s fl).2 = .exit) : (St.saveSamples D s fl).1 = s := by
  unfold St.saveSamples at *
  split at h
  · rfl
  · cases h
  · split at h
    · cases h
    · simp only at h
      split at h
      · simp only at h; split at h <;> cases h
      · cases h

/-- Payloads with `uint64` times. -/
def Times (d : Data) : Prop := ∀ a b, HasTime d a b → a < 2 ^ 64

/-- One step of the service is at most one operation of the store. -/
theorem step_ops {s s' : Svc σ} {es e : List (Event σ)} {k : Nat} {l : Label σ} {ls : List (Label σ)} (hi : Inv Times bw s es k) (hk : k < 2 ^ 44)
    (hs : Sane D bw s (l :: ls)) (h : step D bw s l = some (s', e)) :
    (opsOf e = [] ∧ s'.store = s.store) ∨ ∃ op, opsOf e = [op] ∧ s'.store = St.step D s.store op ∧ St.Valid D s.store [op] := by
  by_cases hr : ∃ st c, l = .restart st c
  · obtain ⟨st, c, rfl⟩ := hr
    simp only [step] at h
    split at h
    · rename_i s1 h1
      cases h
      refine .inr ⟨.restart st, rfl, ?_, hs.1.1, hs.1.2, trivial⟩
      unfold start at h1
      split at h1 <;> cases h1
      rfl
    · cases h
  · have h' : live D bw s l = some (s', e) := by
      cases l <;> first | exact absurd ⟨_, _, rfl⟩ hr | (simp only [step] at h; split at h <;> first | cases h; done | exact h)
    by_cases hsv : ∃ fl, l = .save fl
    · obtain ⟨fl, rfl⟩ := hsv
      simp only [live] at h'
      split at h' <;> cases h'
      rename_i x hf
      by_cases ho : (St.saveSamples D s.store { fl with samples := s.lists x }).2 = .exit
      · exact .inl ⟨by simp [opsOf, ho], save_exit ho⟩
      · refine .inr ⟨.flush { fl with samples := s.lists x }, by simp [opsOf, ho], rfl, ?_, ho, trivial⟩
        have hin : inHand s = s.lists x := by unfold inHand; rw [hf]
        have hmem : ∀ y ∈ s.lists x, y ∈ allOf s es := fun y hy => by unfold allOf; rw [hin]; simp [hy]
        exact ⟨hs.1.1, hs.1.2.1, hs.1.2.2, fun y hy => hi.payload.1 y (hmem y hy), fun y hy => by
          have h1 := hi.below y (hmem y hy)
          have h2 := hi.seq.next
          omega⟩
    · left
      cases l <;> simp only [live] at h'
      case number t =>
        split at h'
        · split at h' <;> (cases h'; exact ⟨rfl, rfl⟩)
        · cases h'
      case swap pick =>
        split at h' <;> cases h'
        rw [get_new hi.pool]; exact ⟨rfl, rfl⟩
      case cancel => cases h'; exact ⟨rfl, rfl⟩
      case save fl => exact absurd ⟨_, rfl⟩ hsv
      case restart => cases h'
      all_goals (split at h' <;> (cases h'; try exact ⟨rfl, rfl⟩))

theorem run_ops (hpos : 0 < bw) (st : σ) : ∀ (ls : List (Label σ)) {s s' : Svc σ} {es e : List (Event σ)} {k : Nat},
    Inv Times bw s es k → k + (ls.map (cost bw)).sum + bw < 2 ^ 44 → Sane D bw s ls → run D bw s ls = some (s', e) →
    s.store = St.run D st (opsOf es) → St.Valid D (St.fresh st) (opsOf es) →
    s'.store = St.run D st (opsOf (es ++ e)) ∧ St.Valid D (St.fresh st) (opsOf (es ++ e)) := by
  intro ls
  induction ls with
  | nil => intro s s' es e k _ _ _ h h1 h2; cases h; simpa using ⟨h1, h2⟩
  | cons l ls ih =>
    intro s s' es e k hi hk hs h h1 h2
    simp only [List.map_cons, List.sum_cons] at hk
    simp only [run] at h
    split at h
    · cases h
    · rename_i s1 e1 hstep
      split at h
      · cases h
      · rename_i s2 e2 hrun
        cases h
        have hP : ∀ t d, l = .call t d → Times d := by rintro t d rfl; exact hs.1
        have hi' := step_inv hpos hi (by omega) hP hstep
        rw [← List.append_assoc]
        have hkl : k + cost bw l + (ls.map (cost bw)).sum + bw < 2 ^ 44 := by omega
        rcases step_ops hi (by omega) hs hstep with ⟨a, b⟩ | ⟨op, a, b, c⟩
        · have ea : opsOf (es ++ e1) = opsOf es := by rw [opsOf_append, a, List.append_nil]
          exact ih hi' hkl (hs.2 _ _ hstep) hrun (by rw [ea, b]; exact h1) (by rw [ea]; exact h2)
        · have ea : opsOf (es ++ e1) = opsOf es ++ [op] := by rw [opsOf_append, a]
          refine ih hi' hkl (hs.2 _ _ hstep) hrun (by rw [ea, run_snoc, b, h1]) ?_
          rw [ea]
          refine valid_snoc _ _ _ h2 ?_
          rw [h1] at c
          exact c

/-- **C42**, for the store: what the service has done to its store is a history of flushes and restarts as C25–C32 assume, with
samples in increasing order of ids; all of them were answered or on their way (`C42_exactly_once_in_order`). -/
theorem C42_store_history (hpos : 0 < bw) {db : KV} (hdb : db Sq.seqKey = none) (st : σ) (ls : List (Label σ)) {s0 s : Svc σ} {es : List (Event σ)}
    (h0 : init bw st db = some s0) (h : run D bw s0 ls = some (s, es)) (hb : used bw ls + bw < 2 ^ 44) (hs : Sane D bw s0 ls) :
    s.store = St.run D st (opsOf es) ∧ St.Valid D (St.fresh st) (opsOf es) ∧ St.Increasing (St.samplesOf D st (opsOf es)) := by
  obtain ⟨s', h1, h2, h3⟩ := init_inv (P := Times) (bw := bw) (st := st) hdb
  rw [h0] at h1; cases h1
  obtain ⟨a, b⟩ := run_ops hpos st ls h2 (by rw [used_eq]; omega) hs h h3 trivial
  refine ⟨by simpa using a, by simpa using b, ?_⟩
  have hids := (C42_exactly_once_in_order hpos hdb st ls h0 h (by omega)).1
  have hp : (flushedOf es).Pairwise fun a b => a.id < b.id := pairwise_left hids
  have hsub := ops_sublist es
  rw [← offered_samples (D := D) (opsOf es) (St.fresh st) 0] at hsub
  have := hp.sublist hsub
  rw [List.pairwise_map] at this
  exact this

/-! ## C43: shutdown -/

/-- An export answered with success. -/
def oneExport (t : Nat) (d : Data) : List (Label σ) := [.call t d, .lock t, .number t, .append t, .ret t]
/-- One round of the flusher. -/
def oneFlush (fl : Flush) : List (Label σ) := [.tick, .flock, .swap none, .funlock, .save fl, .release]

theorem export_run {s : Svc σ} {es : List (Event σ)} {k t : Nat} {d : Data} (hpos : 0 < bw) (hi : Inv (fun _ => True) bw s es k) (hk : k + bw < 2 ^ 64) (hd : s.dead = false)
    (hc : s.calls t = .outside) (hl : s.lock = none) : ∃ s', Finishes D bw s t (oneExport t d) d s' := by
  have h : step D bw s (.call t d) = some (setCall s t (.entered d), []) := by
    simp only [step, live, hc, hd, Bool.false_eq_true, if_false]
  obtain ⟨s', hf⟩ := finish_entered (D := D) (s := setCall s t (.entered d)) (t := t) (d := d) hpos hi.seq hk hd (by rw [calls_set, if_pos rfl]) hl
  exact ⟨s', finish_cons h (fun u hu => by rw [calls_set, if_neg hu]) rfl rfl hf⟩

/-- **C43** is false of the code, for every payload, dictionary and lease: a request answered with success, then a clean shutdown
(the context is cancelled, the flusher stops, the sequence is released) and a restart: the store was never handed the sample,
and nobody has it any more. -/
theorem C43_refuted_shutdown (hpos : 0 < bw) (hbw : bw < 2 ^ 62) {db : KV} (hdb : db Sq.seqKey = none) (st : σ) (d : Data) :
    ∃ s0 s, init bw st db = some s0 ∧ run D bw s0 (oneExport 0 d ++ [.cancel, .stop, .restart st true]) = some (s, [.returned d, .restarted st]) ∧
      buffered s = [] ∧ inHand s = [] ∧ s.store = St.step D (St.fresh st) (.restart st) := by
  obtain ⟨s0, h0, hi, hst⟩ := init_inv (P := fun _ => True) (bw := bw) (st := st) hdb
  have hs0 : s0.dead = false ∧ s0.calls 0 = .outside ∧ s0.lock = none ∧ s0.flusher = .waiting := by
    unfold init at h0
    split at h0 <;> cases h0
    exact ⟨rfl, rfl, rfl, rfl⟩
  obtain ⟨s1, hf⟩ := export_run (D := D) (d := d) hpos hi (by omega) hs0.1 hs0.2.1 hs0.2.2.1
  have hi1 := run_inv hpos _ hi (by simp [oneExport, cost]; omega) (fun _ _ _ => trivial) hf.run
  have hw := hf.flusher.trans hs0.2.2.2
  have h1 : step D bw s1 .cancel = some ({ s1 with cancelled := true }, []) := by
    simp only [step, live, hf.alive, Bool.false_eq_true, if_false]
  have h2 : step D bw { s1 with cancelled := true } .stop = some ({ s1 with cancelled := true, flusher := .stopped }, []) := by
    simp only [step, live, hf.alive, Bool.false_eq_true, if_false, hw, true_and, if_true]
  have hk : 0 + (List.map (cost bw) (oneExport (σ := σ) 0 d)).sum + bw < 2 ^ 64 := by simp [oneExport, cost]; omega
  obtain ⟨w1, a1, -, c1⟩ := Sq.release_step hi1.seq hk
  obtain ⟨w2, a2, -, c2⟩ := Sq.reopen_step c1 hk
  have h3 : step D bw { s1 with cancelled := true, flusher := .stopped } (.restart st true) =
      some ({ seq := w2, store := St.step D s1.store (.restart st) }, [.restarted st]) := by
    simp only [step, atExit, start, if_true, a1, a2]
  refine ⟨s0, { seq := w2, store := St.step D s1.store (.restart st) }, h0, run_join hf.run (b := [.cancel, .stop, .restart st true]) (e2 := [.restarted st]) ?_, rfl, rfl, ?_⟩
  · simp only [run, h1, h2, h3, List.nil_append, List.append_nil]
  · show St.step D s1.store (.restart st) = _
    rw [hf.store, hst]

/-- One round of the flusher empties the buffer into the store, whatever the outcome. -/
theorem flush_run {s : Svc σ} {es : List (Event σ)} {k : Nat} {fl : Flush} (hi : Inv (fun _ => True) bw s es k) (hd : s.dead = false)
    (hl : s.lock = none) (hf : s.flusher = .waiting) (ho : (St.saveSamples D s.store { fl with samples := buffered s }).2 ≠ .exit) :
    ∃ s', run D bw s (oneFlush fl) = some (s', [.flushed { fl with samples := buffered s } (St.saveSamples D s.store { fl with samples := buffered s }).2]) ∧
      buffered s' = [] ∧ inHand s' = [] ∧ s'.store = (St.saveSamples D s.store { fl with samples := buffered s }).1 := by
  have hdc := hi.data
  have h1 : step D bw s .tick = some ({ s with flusher := .ticked }, []) := by
    simp only [step, live, hd, hf, Bool.false_eq_true, if_false, if_true]
  have h2 : step D bw { s with flusher := .ticked } .flock = some ({ s with flusher := .locked, lock := some .flusher }, []) := by
    simp only [step, live, hd, hl, and_self, Bool.false_eq_true, if_false, if_true]
  have h3 : step D bw { s with flusher := .locked, lock := some .flusher } (.swap none) =
      some ({ setList { s with count := s.count + 1, lock := some .flusher } s.count [] with data := s.count, flusher := .swapped s.data }, []) := by
    simp only [step, live, hd, Bool.false_eq_true, if_false, if_true]; rfl
  have h4 : step D bw { setList { s with count := s.count + 1, lock := some .flusher } s.count [] with data := s.count, flusher := .swapped s.data } .funlock =
      some ({ setList { s with count := s.count + 1, lock := none } s.count [] with data := s.count, flusher := .unlocked s.data }, []) := by
    simp only [step, live, setList, hd, Bool.false_eq_true, if_false]
  have hb : (setList { s with count := s.count + 1, lock := none } s.count []).lists s.data = buffered s := by
    show (if s.data = s.count then [] else s.lists s.data) = _
    rw [if_neg (by omega)]; rfl
  have h5 : step D bw { setList { s with count := s.count + 1, lock := none } s.count [] with data := s.count, flusher := .unlocked s.data } (.save fl) =
      some ({ setList { s with count := s.count + 1, lock := none } s.count [] with data := s.count, flusher := .saved s.data, store := (St.saveSamples D s.store { fl with samples := buffered s }).1, dead := false },
        [.flushed { fl with samples := buffered s } (St.saveSamples D s.store { fl with samples := buffered s }).2]) := by
    have hbe : ((St.saveSamples D s.store { fl with samples := buffered s }).2 == Outcome.exit) = false := by simpa using ho
    simp only [step, live]
    rw [hb]
    simp only [setList, hd, hbe, Bool.false_eq_true, if_false]
  have h6 : step D bw { setList { s with count := s.count + 1, lock := none } s.count [] with data := s.count, flusher := .saved s.data, store := (St.saveSamples D s.store { fl with samples := buffered s }).1, dead := false } .release =
      some ({ setList (setList { s with count := s.count + 1, lock := none } s.count []) s.data [] with data := s.count, flusher := .waiting, store := (St.saveSamples D s.store { fl with samples := buffered s }).1, dead := false }, []) := by
    simp only [step, live, Bool.false_eq_true, if_false]; rfl
  refine ⟨{ setList (setList { s with count := s.count + 1, lock := none } s.count []) s.data [] with data := s.count, flusher := .waiting, store := (St.saveSamples D s.store { fl with samples := buffered s }).1, dead := false }, ?_, ?_, rfl, rfl⟩
  · simp only [oneFlush, run, h1, h2, h3, h4, h5, h6, List.nil_append, List.append_nil]
  · show (if s.count = s.data then [] else if s.count = s.count then [] else _) = _
    rw [if_neg (by omega), if_pos rfl]

/-- **C43** is false of the code also without a shutdown: a flush fails (here: the database refuses its first transaction); the
error is logged, the sample is thrown away. Its payload was answered with success and is neither stored nor waiting, and scans
do not find it; no later flush hands it to the store again (`C42_exactly_once_in_order`). -/
theorem C43_refuted_failure : ∃ s0 s fl, init 1 [] KV.empty = some s0 ∧
    run listDict 1 s0 (oneExport 0 (St.logAt 5 [97]) ++ oneFlush { samples := [], commits := 0 }) = some (s, [.returned (St.logAt 5 [97]), .flushed fl .err]) ∧
    fl.samples.map (·.data) = [St.logAt 5 [97]] ∧ buffered s = [] ∧ inHand s = [] ∧
    St.scan listDict s.store St.toyEnv { scope := Res.logs } = .data (some (.logs [])) := by
  obtain ⟨s0, s1, h0, h1, h2, h3, h4, h5, h6⟩ : ∃ s0 s1, init 1 [] KV.empty = some s0 ∧
      run listDict 1 s0 (oneExport 0 (St.logAt 5 [97])) = some (s1, [.returned (St.logAt 5 [97])]) ∧ buffered s1 = [{ id := 0, data := St.logAt 5 [97] }] ∧
      s1.dead = false ∧ s1.lock = none ∧ s1.flusher = .waiting ∧ s1.store = St.fresh [] := ⟨_, _, rfl, rfl, rfl, rfl, rfl, rfl, rfl⟩
  obtain ⟨s0', h0', hi, -⟩ := init_inv (P := fun _ => True) (bw := 1) (st := ([] : List Bytes)) (db := KV.empty) rfl
  rw [h0] at h0'; cases h0'
  have hi1 := run_inv (by decide) _ hi (by simp [oneExport, cost]) (fun _ _ _ => trivial) h1
  have he : (St.saveSamples listDict (St.fresh []) { samples := [{ id := 0, data := St.logAt 5 [97] }], commits := 0 }).2 = .err := by decide +kernel
  obtain ⟨s2, a, b, c, d⟩ := flush_run (D := listDict) (fl := { samples := [], commits := 0 }) hi1 h3 h4 h5 (by rw [h6, h2, he]; simp)
  rw [h6, h2] at a d
  rw [he] at a
  exact ⟨s0, s2, _, h0, run_join h1 a, rfl, b, c, by rw [d]; decide +kernel⟩

/-! ### What does survive -/

theorem lifeOf_append {a b : List (Event σ)} (h : ∀ st, .restarted st ∉ b) : lifeOf (a ++ b) = lifeOf a ++ b := by
  induction b using List.reverseRecOn with
  | nil => simp
  | append_singleton b e ih =>
    rw [← List.append_assoc, lifeOf_snoc, ih fun st hm => h st (List.mem_append_left _ hm)]
    cases e with
    | restarted st => exact absurd (by simp) (h st)
    | _ => simp

theorem step_no_restart {s s' : Svc σ} {l : Label σ} {e : List (Event σ)} (hl : ∀ st c, l ≠ .restart st c) (h : step D bw s l = some (s', e)) :
    live D bw s l = some (s', e) ∧ ∀ st, .restarted st ∉ e := by
  have h' : live D bw s l = some (s', e) := by
    cases l <;> first | exact absurd rfl (hl _ _) | (simp only [step] at h; split at h <;> first | cases h; done | exact h)
  refine ⟨h', ?_⟩
  cases l <;> simp only [live] at h'
  case number t =>
    split at h'
    · split at h' <;> (cases h'; simp)
    · cases h'
  case cancel => cases h'; simp
  case restart => cases h'
  all_goals (split at h' <;> (cases h'; try simp))

theorem run_no_restart : ∀ (ls : List (Label σ)) {s s' : Svc σ} {e : List (Event σ)}, (∀ st c, .restart st c ∉ ls) → run D bw s ls = some (s', e) →
    ∀ st, .restarted st ∉ e := by
  intro ls
  induction ls with
  | nil => intro s s' e _ h; cases h; simp
  | cons l ls ih =>
    intro s s' e hl h st hm
    simp only [run] at h
    split at h
    · cases h
    · rename_i s1 e1 h1
      split at h
      · cases h
      · rename_i s2 e2 h2
        cases h
        rcases List.mem_append.1 hm with hm | hm
        · exact (step_no_restart (fun st c e => hl st c (e ▸ List.mem_cons_self)) h1).2 st hm
        · exact ih (fun st c hm => hl st c (List.mem_cons_of_mem _ hm)) h2 st hm

/-- The flusher keeps what it has taken until it hands it to the store. -/
theorem hold_until : ∀ (ls : List (Label σ)) {s s' : Svc σ} {es e : List (Event σ)} {k x : Nat}, 0 < bw → Inv (fun _ => True) bw s es k →
    k + (ls.map (cost bw)).sum + bw < 2 ^ 64 → (s.flusher = .swapped x ∨ s.flusher = .unlocked x) → (∀ st c, .restart st c ∉ ls) → (∃ fl, .save fl ∈ ls) →
    run D bw s ls = some (s', e) → ∃ rest, flushedOf e = inHand s ++ rest := by
  intro ls
  induction ls with
  | nil => intro s s' es e k x _ _ _ _ _ hs; obtain ⟨fl, h⟩ := hs; cases h
  | cons l ls ih =>
    intro s s' es e k x hpos hi hk hf hr hs h
    simp only [List.map_cons, List.sum_cons] at hk
    simp only [run] at h
    split at h
    · cases h
    · rename_i s1 e1 h1
      split at h
      · cases h
      · rename_i s2 e2 h2
        cases h
        have hi' := step_inv hpos hi (by omega) (fun _ _ _ => trivial) h1
        obtain ⟨hlive, -⟩ := step_no_restart (fun st c e => hr st c (e ▸ List.mem_cons_self)) h1
        have hin : inHand s = s.lists x := by unfold inHand; rcases hf with hf | hf <;> rw [hf]
        by_cases hsv : ∃ fl, l = .save fl
        · obtain ⟨fl, rfl⟩ := hsv
          simp only [live] at hlive
          split at hlive <;> cases hlive
          rename_i y hy
          have : y = x := by rcases hf with hf | hf <;> (rw [hy] at hf; cases hf); rfl
          subst this
          exact ⟨flushedOf e2, by rw [flushedOf_append, hin]; simp [flushedOf]⟩
        · have hsame : flushedOf e1 = [] ∧ inHand s1 = inHand s ∧ (s1.flusher = .swapped x ∨ s1.flusher = .unlocked x) := by
            have hne := (hi.hand x (by rcases hf with hf | hf; exact .inl hf; exact .inr (.inl hf))).2
            cases l <;> simp only [live] at hlive
            case save fl => exact absurd ⟨_, rfl⟩ hsv
            case restart => cases hlive
            case cancel => cases hlive; exact ⟨rfl, rfl, hf⟩
            case call => split at hlive <;> cases hlive; exact ⟨rfl, rfl, hf⟩
            case lock => split at hlive <;> cases hlive; exact ⟨rfl, rfl, hf⟩
            case number =>
              split at hlive
              · split at hlive <;> (cases hlive; exact ⟨rfl, rfl, hf⟩)
              · cases hlive
            case append =>
              split at hlive <;> cases hlive
              exact ⟨rfl, inHand_eq rfl fun ls h => if_neg (hi.hand ls h).2, hf⟩
            case ret => split at hlive <;> cases hlive; exact ⟨rfl, rfl, hf⟩
            case tick =>
              split at hlive <;> cases hlive
              rename_i h; rcases hf with hf | hf <;> (rw [h] at hf; cases hf)
            case flock =>
              split at hlive <;> cases hlive
              rename_i h; rcases hf with hf | hf <;> (rw [h.1] at hf; cases hf)
            case swap =>
              split at hlive <;> cases hlive
              rename_i h; rcases hf with hf | hf <;> (rw [h] at hf; cases hf)
            case release =>
              split at hlive <;> cases hlive
              rename_i h; rcases hf with hf | hf <;> (rw [h] at hf; cases hf)
            case stop =>
              split at hlive <;> cases hlive
              rename_i h; rcases hf with hf | hf <;> (rw [h.1] at hf; cases hf)
            case funlock =>
              split at hlive <;> cases hlive
              rename_i y hy
              have : y = x := by rcases hf with hf | hf <;> (rw [hy] at hf; cases hf); rfl
              subst this
              refine ⟨rfl, ?_, .inr rfl⟩
              rw [hin]; rfl
          obtain ⟨rest, hrest⟩ := ih hpos hi' (by omega) hsame.2.2 (fun st c hm => hr st c (List.mem_cons_of_mem _ hm))
            (by obtain ⟨fl, hfl⟩ := hs
                rcases List.mem_cons.1 hfl with rfl | hfl
                · exact absurd ⟨_, rfl⟩ hsv
                · exact ⟨fl, hfl⟩) h2
          exact ⟨rest, by rw [flushedOf_append, hsame.1, hrest, hsame.2.1, List.nil_append]⟩

/-- **C43**: a flush that cannot translate a label ends the process (`logger.Fail`): nothing happens after it except a restart, so
the requests that are still buffered are lost with it. -/
theorem C43_exit_is_final {s s' s'' : Svc σ} {fl fl' : Flush} {e : List (Event σ)} {l : Label σ}
    (h : step D bw s (.save fl) = some (s', [.flushed fl' .exit])) (hl : step D bw s' l = some (s'', e)) :
    ∃ st clean, l = .restart st clean := by
  have hd : s'.dead = true := by
    cases hs : s.dead with
    | true => simp [step, hs] at h
    | false =>
      simp only [step, hs, live] at h
      cases hf : s.flusher <;> rw [hf] at h <;> simp at h
      obtain ⟨h1, _, h3⟩ := h
      rw [← h1]; simp [h3]
  cases l <;> first
    | exact ⟨_, _, rfl⟩
    | (simp [step, hd] at hl)

/-- **C43** (partial). Every request answered before the flusher exchanges the buffer (step `swap`) has been handed to the store
once that round has saved, if the process lives until then: the payloads answered before are, in order, the first that the
store was handed. Missing: requests answered after the last exchange, and failing flushes (`C43_refuted_shutdown`,
`C43_refuted_failure`). -/
theorem C43_flushed_partial (hpos : 0 < bw) {db : KV} (hdb : db Sq.seqKey = none) (st : σ) (A B : List (Label σ)) (pick : Option Nat) {s0 sA s : Svc σ} {eA es : List (Event σ)}
    (h0 : init bw st db = some s0) (hA : run D bw s0 A = some (sA, eA)) (h : run D bw sA (.swap pick :: B) = some (s, es))
    (hb : used bw (A ++ .swap pick :: B) + bw < 2 ^ 64) (hr : ∀ st c, .restart st c ∉ B) (hs : ∃ fl, .save fl ∈ B) :
    ∃ rest, (flushedOf (lifeOf (eA ++ es))).map (·.data) = ackedOf (lifeOf eA) ++ rest := by
  have hu : used bw (A ++ .swap pick :: B) = used bw A + used bw B := by
    rw [← used_eq, ← used_eq, ← used_eq, List.map_append, List.sum_append, List.map_cons, List.sum_cons]; simp [cost]
  have hi : Inv (fun _ => True) bw sA eA _ := reachable_inv hpos hdb st h0 hA (by omega) (fun _ _ _ => trivial)
  have hnr := run_no_restart (.swap pick :: B) (fun st c hm => by rcases List.mem_cons.1 hm with hm | hm; cases hm; exact hr st c hm) h
  simp only [run] at h
  split at h
  · cases h
  · rename_i s1 e1 h1
    split at h
    · cases h
    · rename_i s2 e2 h2
      cases h
      have hi1 := step_inv hpos hi (by omega) (fun _ _ _ => trivial) h1
      obtain ⟨he1, hbuf, hfl⟩ : e1 = [] ∧ buffered s1 = [] ∧ s1.flusher = .swapped sA.data := by
        obtain ⟨hlive, -⟩ := step_no_restart (by simp) h1
        simp only [live] at hlive
        split at hlive <;> cases hlive
        rename_i hf
        exact ⟨rfl, (inv_swap (pick := pick) hi hf).2, rfl⟩
      subst he1
      obtain ⟨rest, hrest⟩ := hold_until B hpos hi1 (by rw [used_eq]; simp [cost]; omega) (.inl hfl) hr hs h2
      have hacks := hi1.acks
      rw [List.append_nil] at hacks
      unfold allOf at hacks
      rw [hbuf, List.append_nil] at hacks
      refine ⟨unanswered s1 ++ rest.map (·.data), ?_⟩
      rw [lifeOf_append hnr, List.nil_append, flushedOf_append, hrest, ← List.append_assoc, List.map_append, ← hacks, List.append_assoc]

/-- **C43** (partial), at rest: when the flusher waits and nothing is buffered, everything answered was handed to the store. -/
theorem C43_at_rest_partial (hpos : 0 < bw) {db : KV} (hdb : db Sq.seqKey = none) (st : σ) (ls : List (Label σ)) {s0 s : Svc σ} {es : List (Event σ)}
    (h0 : init bw st db = some s0) (h : run D bw s0 ls = some (s, es)) (hb : used bw ls + bw < 2 ^ 64) (hf : s.flusher = .waiting) (hl : s.lock = none)
    (he : buffered s = []) : ackedOf (lifeOf es) = (flushedOf (lifeOf es)).map (·.data) := by
  have := (C42_exactly_once_in_order hpos hdb st ls h0 h hb).2
  rw [he, unanswered_nil (by simp [hl])] at this
  have hh : inHand s = [] := by unfold inHand; rw [hf]
  rw [hh] at this
  simpa using this

/-! ### The hypotheses can be met -/

/-- Schedules without restarts are sane if the maps are iterated in some order and times are `uint64`. -/
theorem sane_of : ∀ (ls : List (Label σ)) (s : Svc σ), (∀ st c, .restart st c ∉ ls) → (∀ t d, .call t d ∈ ls → Times d) →
    (∀ fl, .save fl ∈ ls → (∀ m, (fl.viewOrder m).Perm m) ∧ (∀ m, (fl.shardOrder m).Perm m) ∧ ∀ m, (fl.bitsOrder m).Perm m) → Sane D bw s ls := by
  intro ls
  induction ls with
  | nil => intro s _ _ _; trivial
  | cons l ls ih =>
    intro s h1 h2 h3
    refine ⟨?_, fun s' es _ => ih s' (fun st c hm => h1 st c (List.mem_cons_of_mem _ hm)) (fun t d hm => h2 t d (List.mem_cons_of_mem _ hm))
      fun fl hm => h3 fl (List.mem_cons_of_mem _ hm)⟩
    cases l with
    | call t d => exact h2 t d List.mem_cons_self
    | save fl => exact h3 fl List.mem_cons_self
    | restart st c => exact absurd List.mem_cons_self (h1 st c)
    | _ => trivial

/-- Two calls overlap with each other and with a flush: the second to arrive gets the lock first; the flush is between; the other
call has stored its sample and not answered. -/
def overlapping : List (Label (List Bytes)) :=
  [.call 0 (St.logAt 5 [97]), .call 1 (St.logAt 7 [98]), .tick, .lock 1, .number 1, .append 1, .ret 1, .flock, .swap none, .funlock,
   .lock 0, .number 0, .save { samples := [], commits := 5 }, .append 0, .release]

/-- It can happen, and shows a flushed, a buffered and an unanswered sample (C42). -/
example : ((init 1 [] KV.empty).bind fun s0 => (run listDict 1 s0 overlapping).map fun r =>
    ((ackedOf r.2, unanswered r.1), ((flushedOf r.2).map (·.id), (buffered r.1).map (·.id)))) =
      some (([St.logAt 7 [98]], [St.logAt 5 [97]]), ([0], [1])) := by decide +kernel

theorem logAt_times {ts : Nat} {sev : Bytes} (h : ts < 2 ^ 64) : Times (St.logAt ts sev) := by
  intro a b hab
  simp only [St.logAt, HasTime, List.mem_singleton, exists_eq_left] at hab
  omega

/-- It is sane (`C42_store_history`). -/
example (s0 : Svc (List Bytes)) : Sane listDict 1 s0 overlapping := by
  refine sane_of _ _ (by simp [overlapping]) ?_ ?_
  · intro t d hm
    simp only [overlapping, List.mem_cons, Label.call.injEq, List.not_mem_nil, or_false, reduceCtorEq] at hm
    rcases hm with ⟨-, rfl⟩ | ⟨-, rfl⟩ <;> exact logAt_times (by decide)
  · intro fl hm
    simp only [overlapping, List.mem_cons, Label.save.injEq, List.not_mem_nil, or_false, reduceCtorEq, false_or] at hm
    subst hm
    exact ⟨fun _ => .refl _, fun _ => .refl _, fun _ => .refl _⟩

/-- C51: after its first eleven steps call 0 is in progress, process alive. -/
example : ((init 1 [] KV.empty).bind fun s0 => (run listDict 1 s0 (overlapping.take 9)).map fun r => (payloadOf (r.1.calls 0), r.1.dead, r.1.lock)) =
    some (some (St.logAt 5 [97]), false, some .flusher) := by decide +kernel

/-- `C43_flushed_partial`: the pieces before and after the exchange. -/
example : overlapping = overlapping.take 8 ++ .swap none :: overlapping.drop 9 ∧ (∃ fl, .save fl ∈ overlapping.drop 9) ∧ ∀ st c, .restart st c ∉ overlapping.drop 9 :=
  ⟨rfl, ⟨{ samples := [], commits := 5 }, by simp [overlapping]⟩, by simp [overlapping]⟩

/-- With a crash, a clean shutdown and restarts between exports: the ids go on, two samples were lost. -/
example : ((init 2 [] KV.empty).bind fun s0 => (run listDict 2 s0
      (oneExport 0 (St.logAt 5 [97]) ++ [.restart [] false] ++ oneExport 0 (St.logAt 6 [97]) ++ [.cancel, .stop, .restart [] true] ++
       oneExport 0 (St.logAt 7 [97]) ++ oneFlush { samples := [], commits := 5 })).map fun r =>
    (ackedOf r.2, (flushedOf r.2).map (·.id), ackedOf (lifeOf r.2))) =
      some ([St.logAt 5 [97], St.logAt 6 [97], St.logAt 7 [97]], [3], [St.logAt 7 [97]]) := by decide +kernel

end Verif.Sv
