import Verif.Props.EndToEnd
import Verif.Props.ScanExact
/-!
# C43, C53, exactly

What is lost when a process ends, and what scans return after any schedule.
-/
namespace Verif.Sv
open St (Flush Outcome)
variable {σ : Type} {D : Dict σ} {bw : Nat}

/-- What a process had and had not handed to the store. -/
def held (s : Svc σ) : List Sample := inHand s ++ buffered s

/-- After a restart, the samples held by the process before may as well have been flushed: their ids are used up. -/
theorem inv_restart_held {P : Data → Prop} {s : Svc σ} {es es' : List (Event σ)} {st : σ} {w : Sq.World} {store : St.Store σ} {k k' : Nat}
    (hi : Inv P bw s es k) (he : flushedOf es' = allOf s es) (hw : Sq.SInv w bw k') (hn : s.seq.seq.next ≤ w.seq.next) :
    Inv P bw { seq := w, store := store } (es' ++ [.restarted st]) k' := by
  have hf : flushedOf (es' ++ [.restarted st]) = flushedOf es' := by simp [flushedOf]
  have ha : allOf { seq := w, store := store } (es' ++ [.restarted st]) = allOf s es := by
    unfold allOf at he ⊢; rw [hf, he]; show _ ++ [] ++ [] = _; simp
  exact {
    seq := hw
    pool := rfl
    data := by show 0 < 1; omega
    hand := fun l h => by rcases h with h | h | h <;> cases h
    lock := fun t h => h.elim
    flock := fun h => by rcases h with h | ⟨_, h⟩ <;> cases h
    holder := fun u h => nomatch h
    fholder := fun h => nomatch h
    ids := by rw [ha]; exact hi.ids
    below := by
      rw [ha]; intro x hx
      have := hi.below x hx
      show x.id < w.seq.next
      omega
    num := fun t d n h => by cases h
    acks := by rw [lifeOf_snoc]; rfl
    payload := ⟨by rw [ha]; exact hi.payload.1, fun t d h => by rcases h with h | h | ⟨_, h⟩ <;> cases h⟩ }

/-- **C43**, exactly. A process runs (`A`, from the first start on, maybe after other processes), ends in any way, and another one is
started, and so on (`B`). The requests the process has answered with success are, in order, what it has handed to the store and then what
it still held (up to at most one request whose answer was on its way). What it held is lost: no sample with its id is ever handed to the
store, before or after. So everything answered has been handed over exactly if it held nothing but the sample of that request. -/
theorem C43_exact (hpos : 0 < bw) {db : KV} (hdb : db Sq.seqKey = none) (st st1 : σ) (clean : Bool) (A B : List (Label σ)) {s0 s1 s : Svc σ}
    {e1 e2 : List (Event σ)} (h0 : init bw st db = some s0) (h1 : run D bw s0 A = some (s1, e1))
    (h2 : run D bw s1 (.restart st1 clean :: B) = some (s, e2)) (hb : used bw (A ++ .restart st1 clean :: B) + bw < 2 ^ 64) :
    ackedOf (lifeOf e1) ++ unanswered s1 = (flushedOf (lifeOf e1)).map (·.data) ++ (held s1).map (·.data) ∧
    (∀ x ∈ held s1, ∀ y ∈ flushedOf (e1 ++ e2), y.id ≠ x.id) ∧
    (ackedOf (lifeOf e1) = (flushedOf (lifeOf e1)).map (·.data) ↔ (held s1).map (·.data) = unanswered s1) := by
  have hu : used bw (A ++ .restart st1 clean :: B) = used bw A + (bw + used bw B) := by
    rw [← used_eq, ← used_eq, ← used_eq, List.map_append, List.sum_append, List.map_cons, List.sum_cons]; rfl
  have hi : Inv (fun _ => True) bw s1 e1 (used bw A) := reachable_inv hpos hdb st h0 h1 (by omega) (fun _ _ _ => trivial)
  have hk : used bw A + bw < 2 ^ 64 := by omega
  have hacks := hi.acks
  unfold allOf at hacks
  rw [List.append_assoc, List.map_append] at hacks
  refine ⟨hacks, ?_, ?_⟩
  · simp only [run] at h2
    split at h2
    · cases h2
    · rename_i s2 es2 hs
      split at h2
      · cases h2
      · rename_i s3 es3 hB
        cases h2
        simp only [step] at hs
        obtain ⟨w1, a1, a2, a3⟩ : ∃ w, atExit bw s1.seq clean = w ∧ s1.seq.seq.next ≤ w.seq.next ∧ Sq.SInv w bw (used bw A) := by
          unfold atExit
          cases clean with
          | false => exact ⟨_, rfl, Nat.le_refl _, hi.seq⟩
          | true =>
            obtain ⟨w', a, b, c⟩ := Sq.release_step hi.seq hk
            rw [a]
            exact ⟨w', rfl, by omega, c⟩
        obtain ⟨w2, b1, b2, b3⟩ := Sq.reopen_step a3 hk
        rw [a1] at hs
        unfold start at hs
        rw [b1] at hs
        cases hs
        have hi2 := inv_restart_held (es' := e1 ++ [.flushed { samples := held s1, commits := 0 } .err]) (st := st1) (store := St.step D s1.store (.restart st1))
          hi (by rw [flushedOf_append]; unfold allOf held; rw [List.append_assoc]; simp [flushedOf]) b3 (Nat.le_trans a2 b2)
        have hi3 := run_inv hpos B hi2 (by rw [used_eq]; omega) (fun _ _ _ => trivial) hB
        have hp := hi3.ids
        unfold allOf at hp
        have hp := pairwise_left hp
        simp only [flushedOf_append] at hp ⊢
        have e0 : flushedOf [(.restarted st1 : Event σ)] = [] := rfl
        have eh : flushedOf [(.flushed { samples := held s1, commits := 0 } .err : Event σ)] = held s1 := by simp [flushedOf]
        rw [e0, List.append_nil, eh, List.append_assoc] at hp
        rw [e0, List.nil_append]
        obtain ⟨-, p2, p3⟩ := List.pairwise_append.1 hp
        obtain ⟨-, -, p5⟩ := List.pairwise_append.1 p2
        intro x hx y hy
        rcases List.mem_append.1 hy with hy | hy
        · have := p3 y hy x (List.mem_append_left _ hx); omega
        · have := p5 x hx y hy; omega
  · constructor
    · intro h; rw [h] at hacks; exact (List.append_cancel_left hacks).symm
    · intro h; unfold held at h; rw [h] at hacks; exact List.append_cancel_right hacks

/-! ## What is handed to the store -/

/-- The flushes that returned, with whether they succeeded. (One that cannot translate a label ends the process before it writes anything.) -/
def returnedFlushes (es : List (Event σ)) : List (Flush × Bool) :=
  es.filterMap fun e => match e with
    | .flushed fl o => if o = .exit then none else some (fl, o == .ok)
    | _ => none

theorem returnedFlushes_append (a b : List (Event σ)) : returnedFlushes (a ++ b) = returnedFlushes a ++ returnedFlushes b := by simp [returnedFlushes]

theorem tag_pairs (ok : Bool) : ∀ (r : Int) (ss : List Sample), (St.tag ok r ss).map (fun o => (o.sample, o.ok)) = ss.map fun x => (x, ok) := by
  intro r ss
  induction ss generalizing r with
  | nil => rfl
  | cons x ss ih => simp [St.tag, ih]

theorem flushes_events : ∀ (ls : List (Label σ)) {s s' : Svc σ} {e : List (Event σ)} (r : Int), run D bw s ls = some (s', e) →
    (St.flushes D s.store r (opsOf e)).map (fun f => f.map fun o => (o.sample, o.ok)) = (returnedFlushes e).map fun p => p.1.samples.map fun x => (x, p.2) := by
  intro ls
  induction ls with
  | nil => intro s s' e r h; cases h; rfl
  | cons l ls ih =>
    intro s s' e r h
    simp only [run] at h
    split at h
    · cases h
    · rename_i s1 e1 hstep
      split at h
      · cases h
      · rename_i s2 e2 hrun
        cases h
        have ih := fun r => ih r hrun
        rw [opsOf_append, returnedFlushes_append]
        rcases step_store hstep with ⟨fl, rfl, hs⟩ | ⟨st, rfl, hs⟩ | ⟨he, hs⟩
        · by_cases hx : (St.saveSamples D s.store fl).2 = .exit
          · have e1 : opsOf [Event.flushed (σ := σ) fl (St.saveSamples D s.store fl).2] = [] := by simp [opsOf, hx]
            have e2 : returnedFlushes [Event.flushed (σ := σ) fl (St.saveSamples D s.store fl).2] = [] := by simp [returnedFlushes, hx]
            rw [save_exit hx] at hs
            rw [e1, e2, List.nil_append, List.nil_append, ← hs]
            exact ih r
          · have e1 : opsOf [Event.flushed (σ := σ) fl (St.saveSamples D s.store fl).2] = [.flush fl] := by simp [opsOf, hx]
            have e2 : returnedFlushes [Event.flushed (σ := σ) fl (St.saveSamples D s.store fl).2] = [(fl, (St.saveSamples D s.store fl).2 == .ok)] := by
              simp [returnedFlushes, hx]
            rw [e1, e2]
            simp only [List.singleton_append, St.flushes, List.map_cons, tag_pairs, ← hs, ih]
        · have e1 : opsOf [Event.restarted st] = [.restart st] := rfl
          have e2 : returnedFlushes [Event.restarted st] = [] := rfl
          rw [e1, e2]
          simp only [List.singleton_append, List.nil_append, St.flushes, ← hs, ih]
        · have e1' : opsOf e1 = [] := by rcases he with rfl | ⟨d, rfl⟩ <;> rfl
          have e2 : returnedFlushes e1 = [] := by rcases he with rfl | ⟨d, rfl⟩ <;> rfl
          rw [e1', e2, List.nil_append, List.nil_append, ← hs]
          exact ih r

/-- **C53**, exactly. Whatever the schedule of exports, flushes (cut off anywhere), shutdowns, crashes and restarts: there is an account `L`
of what each flush that returned has committed (everything, if it succeeded), and every scan returns what follows from it (`answer`,
Spec/Scan.lean). -/
theorem C53_exact (hD : D.Lawful) (hpos : 0 < bw) {db : KV} (hdb : db Sq.seqKey = none) (st : σ) (hg : D.Good st)
    (ls : List (Label σ)) {s0 s : Svc σ} {es : List (Event σ)}
    (h0 : init bw st db = some s0) (h : run D bw s0 ls = some (s, es)) (hb : used bw ls + bw < 2 ^ 44) (hs : Sane D bw s0 ls) :
    ∃ L : List St.Landed,
      L.map (fun f => f.samples.map fun o => (o.sample, o.ok)) = (returnedFlushes es).map (fun p => p.1.samples.map fun x => (x, p.2)) ∧
      L.map (·.samples) = St.flushesOf D st (opsOf es) ∧
      (∀ f ∈ L, f.Fine D s.store.ctx.st) ∧
      ∀ (E : St.Env) (_ : E.Fair) (_ : E.NoFaults) (sc : St.Scan),
        St.scan D s.store E sc = St.answer D s.store.ctx.st s.store.idx.opened L E sc := by
  obtain ⟨a, b, c⟩ := C42_store_history hpos hdb st ls h0 h hb hs
  obtain ⟨L, l1, l2, l3⟩ := St.C29_scan_exact D st hD hg (opsOf es) b c
  refine ⟨L, ?_, l1, by rw [a]; exact l2, by rw [a]; exact l3⟩
  obtain ⟨s', i1, -, i3⟩ := init_inv (P := fun _ => True) (bw := bw) (st := st) hdb
  rw [h0] at i1; cases i1
  have := flushes_events ls 0 h
  rw [i3] at this
  rw [← this]
  show _ = List.map _ (St.flushesOf D st (opsOf es))
  rw [← l1, List.map_map]
  rfl

/-! ### Cases that meet the hypotheses -/

/-- A crash loses the buffered sample of the call whose answer came and of the one whose answer did not. -/
example : ((init 1 [] KV.empty).bind fun s0 => (run listDict 1 s0 (oneExport 0 (St.logAt 5 [97]) ++ [.call 1 (St.logAt 7 [98]), .lock 1, .number 1, .append 1])).map fun r =>
    ((held r.1).map (·.id), unanswered r.1, ackedOf r.2)) = some ([0, 1], [St.logAt 7 [98]], [St.logAt 5 [97]]) := by decide +kernel
example : ((init 1 [] KV.empty).bind fun s0 => (run listDict 1 s0 (oneExport 0 (St.logAt 5 [97]) ++ [.restart [] false] ++ oneExport 0 (St.logAt 7 [98]) ++
      oneFlush { samples := [], commits := 5 })).map fun r => ((flushedOf r.2).map (·.id), (returnedFlushes r.2).map (·.2))) = some ([1], [true]) := by decide +kernel
example (s0 : Svc (List Bytes)) : Sane listDict 1 s0 (oneExport 0 (St.logAt 5 [97]) ++ oneFlush { samples := [], commits := 5 }) := by
  refine sane_of _ _ (by simp [oneExport, oneFlush]) ?_ ?_
  · intro t d hm
    simp only [oneExport, oneFlush, List.mem_append, List.mem_cons, Label.call.injEq, List.not_mem_nil, or_false, reduceCtorEq] at hm
    rcases hm with ⟨-, rfl⟩; exact logAt_times (by decide)
  · intro fl hm
    simp only [oneExport, oneFlush, List.mem_append, List.mem_cons, Label.save.injEq, List.not_mem_nil, or_false, reduceCtorEq, false_or] at hm
    subst hm
    exact ⟨fun _ => .refl _, fun _ => .refl _, fun _ => .refl _⟩

end Verif.Sv
