import Verif.Model.Run
/-!
# Starting and stopping the server

C84.
-/
namespace Verif
open Mn
namespace Mn

/-- The parts that were made, in order. -/
def opens : List Event → List Part
  | [] => []
  | .opened x :: l => x :: opens l
  | _ :: l => opens l
/-- The parts that were closed, in order. -/
def closes : List Event → List Part
  | [] => []
  | .closed x :: l => x :: closes l
  | _ :: l => closes l

/-- All parts, in the order of main.go. -/
def all : List Part := [.database, .dictionary, .index, .sequence, .service, .listener, .server, .telemetry]

theorem opens_append (a b : List Event) : opens (a ++ b) = opens a ++ opens b := by
  induction a with
  | nil => rfl
  | cons x a ih => cases x <;> simp [opens, ih]
theorem closes_append (a b : List Event) : closes (a ++ b) = closes a ++ closes b := by
  induction a with
  | nil => rfl
  | cons x a ih => cases x <;> simp [closes, ih]
theorem mem_opens {x : Part} {l : List Event} : x ∈ opens l ↔ .opened x ∈ l := by
  induction l with
  | nil => simp [opens]
  | cons y l ih => cases y <;> simp [opens, ih]
theorem mem_closes {x : Part} {l : List Event} : x ∈ closes l ↔ .closed x ∈ l := by
  induction l with
  | nil => simp [closes]
  | cons y l ih => cases y <;> simp [closes, ih]

/-- What holds of a process after these events. -/
structure Inv (es : List Event) (p : Proc) : Prop where
  made : opens es = all.take (opens es).length
  stack : (opens es).reverse = closes es ++ p.defers
  starting : ∀ l, p.phase = .starting l → l = stages.drop (opens es).length ∧ closes es = [] ∧ ∀ x, .failed x ∉ es
  waiting : p.phase = .waiting → opens es = all ∧ closes es = [] ∧ ∀ x, .failed x ∉ es
  leaving : p.phase = .leaving ∨ p.phase = .returned → (.cancelled ∈ es ∧ opens es = all) ∨ ∃ x, .failed x ∈ es ∧ opens es ≠ all
  returned : p.phase = .returned → p.defers = []
  exited : p.phase = .exited → opens es = [.database, .dictionary, .index, .sequence, .service] ∧ closes es = [] ∧ .failed .listener ∈ es
  cancelled : p.cancelled = true ↔ .cancelled ∈ es
  busy : p.ticker = true ∨ p.flushing = true ∨ p.serving = true ∨ p.exports ≠ 0 → opens es = all

theorem inv_init : Inv [] .init := by
  constructor <;> simp [opens, closes, Proc.init, all, stages]

/-- A step at which no part is made. -/
theorem inv_quiet {es e : List Event} {p p' : Proc} (h : Inv es p) (ho : opens e = []) (hc : closes e = []) (hf : ∀ x, .failed x ∉ e) (hd : p'.defers = p.defers) (hp : p'.phase = p.phase)
    (hx : p'.cancelled = true ↔ p.cancelled = true ∨ .cancelled ∈ e) (hb : p'.ticker = true ∨ p'.flushing = true ∨ p'.serving = true ∨ p'.exports ≠ 0 → opens es = all) : Inv (es ++ e) p' := by
  have ho' : opens (es ++ e) = opens es := by rw [opens_append, ho, List.append_nil]
  have hc' : closes (es ++ e) = closes es := by rw [closes_append, hc, List.append_nil]
  refine ⟨?_, ?_, ?_, ?_, ?_, ?_, ?_, ?_, ?_⟩
  · rw [ho']; exact h.made
  · rw [ho', hc', hd]; exact h.stack
  · intro l hl
    rw [ho', hc']
    obtain ⟨h1, h2, h3⟩ := h.starting l (hp ▸ hl)
    exact ⟨h1, h2, fun x hx => (List.mem_append.mp hx).elim (h3 x) (hf x)⟩
  · intro hl
    rw [ho', hc']
    obtain ⟨h1, h2, h3⟩ := h.waiting (hp ▸ hl)
    exact ⟨h1, h2, fun x hx => (List.mem_append.mp hx).elim (h3 x) (hf x)⟩
  · intro hl
    rw [ho']
    rcases h.leaving (hp ▸ hl) with ⟨h1, h2⟩ | ⟨x, h1, h2⟩
    · exact .inl ⟨by simp [h1], h2⟩
    · exact .inr ⟨x, by simp [h1], h2⟩
  · intro hl; rw [hd]; exact h.returned (hp ▸ hl)
  · intro hl
    rw [ho', hc']
    obtain ⟨h1, h2, h3⟩ := h.exited (hp ▸ hl)
    exact ⟨h1, h2, by simp [h3]⟩
  · rw [hx, List.mem_append, h.cancelled]
  · rw [ho']; exact hb

theorem take_succ_all {k : Nat} {x : Part} {f : OnFail} {rest : List (Part × OnFail)} (h : (x, f) :: rest = stages.drop k) :
    all.take k ++ [x] = all.take (k + 1) ∧ (all.take k).length = k ∧ rest = stages.drop (k + 1) ∧ k < 8 := by
  match k, h with
  | 0, h | 1, h | 2, h | 3, h | 4, h | 5, h | 6, h | 7, h => cases h; exact ⟨rfl, rfl, rfl, by omega⟩
  | n + 8, h => simp [stages] at h

theorem all_of_telemetry {k : Nat} (h : Part.telemetry ∈ all.take k) : all.take k = all := by
  match k, h with
  | 0, h | 1, h | 2, h | 3, h | 4, h | 5, h | 6, h | 7, h => exact absurd h (by decide)
  | n + 8, _ => exact List.take_of_length_le (by simp [all])

theorem inv_step {es e : List Event} {p p' : Proc} {s : Step} (h : Inv es p) (hs : step p s = some (p', e)) : Inv (es ++ e) p' := by
  cases s with
  | make ok =>
    simp only [step] at hs
    split at hs
    · rename_i x f rest hp
      obtain ⟨h1, h2, h3⟩ := h.starting _ hp
      obtain ⟨t1, t2, t3, t4⟩ := take_succ_all h1
      have hne : opens es ≠ all := fun e => by rw [e] at t4; simp [all] at t4
      have hbusy : ¬ (p.ticker = true ∨ p.flushing = true ∨ p.serving = true ∨ p.exports ≠ 0) := fun hb => hne (h.busy hb)
      split at hs
      · cases hs
        have ho : opens (es ++ [.opened x]) = all.take ((opens es).length + 1) := by rw [opens_append, ← t1, ← h.made]; rfl
        have hl : (opens (es ++ [.opened x])).length = (opens es).length + 1 := by rw [opens_append]; simp [opens]
        have hc : closes (es ++ [.opened x]) = closes es := by simp [closes_append, closes]
        refine ⟨by rw [hl, ho], ?_, ?_, nofun, nofun, nofun, nofun, ?_, fun hb => absurd hb hbusy⟩
        · rw [opens_append, hc, List.reverse_append, h.stack, h2]; rfl
        · intro l hl'
          cases hl'
          rw [hl, hc]
          exact ⟨t3, h2, by simpa using h3⟩
        · rw [h.cancelled]; simp
      · have ho : opens (es ++ [.failed x]) = opens es := by simp [opens_append, opens]
        have hc : closes (es ++ [.failed x]) = closes es := by simp [closes_append, closes]
        split at hs
        · cases hs
          refine ⟨by rw [ho]; exact h.made, by rw [ho, hc]; exact h.stack, nofun, nofun, fun _ => .inr ⟨x, by simp, by rw [ho]; exact hne⟩, nofun, nofun, by rw [h.cancelled]; simp, fun hb => absurd hb hbusy⟩
        · cases hs
          refine ⟨by rw [ho]; exact h.made, by rw [ho, hc]; exact h.stack, nofun, nofun, nofun, nofun, fun _ => ?_, by rw [h.cancelled]; simp, fun hb => absurd hb hbusy⟩
          rw [ho, hc]
          have hk : (opens es).length = 5 ∧ x = .listener := by
            generalize (opens es).length = k at h1 t4
            match k, h1, t4 with
            | 0, h, _ | 1, h, _ | 2, h, _ | 3, h, _ | 4, h, _ | 6, h, _ | 7, h, _ => cases h
            | 5, h, _ => cases h; exact ⟨rfl, rfl⟩
            | n + 8, _, h => omega
          refine ⟨?_, h2, by simp [hk.2]⟩
          rw [h.made, hk.1]; rfl
        · cases hs
    · cases hs
  | wait =>
    simp only [step] at hs
    split at hs
    · rename_i hp
      cases hs
      obtain ⟨h1, h2, h3⟩ := h.starting _ hp
      have hall : opens es = all := by
        have h8 : 8 ≤ (opens es).length := by
          have := congrArg List.length h1
          simp [stages] at this; omega
        rw [h.made, List.take_of_length_le (by simpa [all] using h8)]
      rw [List.append_nil]
      exact ⟨h.made, h.stack, nofun, fun _ => ⟨hall, h2, h3⟩, nofun, nofun, nofun, h.cancelled, fun _ => hall⟩
    · cases hs
  | leave =>
    simp only [step] at hs
    split at hs
    · rename_i hp
      split at hs
      · rename_i hcan
        cases hs
        rw [List.append_nil]
        exact ⟨h.made, h.stack, nofun, nofun, fun _ => .inl ⟨h.cancelled.1 hcan, (h.waiting hp).1⟩, nofun, nofun, h.cancelled, h.busy⟩
      · cases hs
    · cases hs
  | close =>
    simp only [step] at hs
    split at hs
    · rename_i x l hp hd
      cases hs
      have ho : opens (es ++ [.closed x]) = opens es := by simp [opens_append, opens]
      refine ⟨by rw [ho]; exact h.made, ?_, ?_, ?_, ?_, ?_, ?_, by simp [h.cancelled], by rw [ho]; exact h.busy⟩
      · rw [ho, closes_append, h.stack, hd]; simp [closes]
      · intro l hl; rw [show p.phase = _ from hp] at hl; cases hl
      · intro hl; rw [show p.phase = _ from hp] at hl; cases hl
      · intro _
        rw [ho]
        rcases h.leaving (.inl hp) with ⟨h1, h2⟩ | ⟨x, h1, h2⟩
        · exact .inl ⟨by simp [h1], h2⟩
        · exact .inr ⟨x, by simp [h1], h2⟩
      · intro hl; rw [show p.phase = _ from hp] at hl; cases hl
      · intro hl; rw [show p.phase = _ from hp] at hl; cases hl
    · cases hs
  | ret =>
    simp only [step] at hs
    split at hs
    · rename_i hp hd
      cases hs
      rw [List.append_nil]
      exact ⟨h.made, h.stack, nofun, nofun, fun _ => h.leaving (.inl hp), fun _ => hd, nofun, h.cancelled, h.busy⟩
    · cases hs
  | signal =>
    simp only [step] at hs
    split at hs
    · cases hs
    · cases hs
    · cases hs
      refine inv_quiet h ?_ ?_ ?_ rfl rfl ?_ h.busy <;> cases hc : p.cancelled <;> simp [opens, closes]
  | served =>
    simp only [step] at hs
    split at hs
    · cases hs
    · cases hs
    · split at hs
      · rename_i hsv
        cases hs
        refine inv_quiet h ?_ ?_ ?_ rfl rfl ?_ (fun _ => h.busy (.inr (.inr (.inl hsv)))) <;> cases hc : p.cancelled <;> simp [opens, closes]
      · cases hs
  | ticked =>
    simp only [step] at hs
    split at hs
    · cases hs
    · cases hs
    · split at hs
      · rename_i hsv
        cases hs
        exact inv_quiet h rfl rfl (by simp) rfl rfl (by simp) fun _ => h.busy (.inl hsv.1)
      · cases hs
  | tickerEnds =>
    simp only [step] at hs
    split at hs
    · cases hs
    · cases hs
    · split at hs
      · rename_i hsv
        cases hs
        exact inv_quiet h rfl rfl (by simp) rfl rfl (by simp) fun _ => h.busy (.inl hsv.1)
      · cases hs
  | flushUse x =>
    simp only [step] at hs
    split at hs
    · cases hs
    · cases hs
    · split at hs
      · rename_i hsv
        cases hs
        exact inv_quiet h rfl rfl (by simp) rfl rfl (by simp) h.busy
      · cases hs
  | flushEnds =>
    simp only [step] at hs
    split at hs
    · cases hs
    · cases hs
    · split at hs
      · rename_i hsv
        cases hs
        exact inv_quiet h rfl rfl (by simp) rfl rfl (by simp) fun _ => h.busy (.inr (.inl hsv))
      · cases hs
  | arrive =>
    simp only [step] at hs
    split at hs
    · cases hs
    · cases hs
    · split at hs
      · rename_i hsv
        cases hs
        refine inv_quiet h rfl rfl (by simp) rfl rfl (by simp) fun _ => ?_
        rcases hsv with ⟨hsv, -⟩ | hsv
        · exact h.busy (.inr (.inr (.inl hsv)))
        · have hm : Part.telemetry ∈ opens es := by rw [← List.mem_reverse, h.stack]; simp [hsv]
          rw [h.made] at hm ⊢
          exact all_of_telemetry hm
      · cases hs
  | save =>
    simp only [step] at hs
    split at hs
    · cases hs
    · cases hs
    · split at hs
      · rename_i hsv
        cases hs
        exact inv_quiet h rfl rfl (by simp) rfl rfl (by simp) fun _ => h.busy (.inr (.inr (.inr hsv)))
      · cases hs

theorem inv_run {es0 : List Event} {p : Proc} (h : Inv es0 p) {ss : List Step} {p' : Proc} {es : List Event} (hr : run p ss = some (p', es)) : Inv (es0 ++ es) p' := by
  induction ss generalizing es0 p es with
  | nil => cases hr; simpa using h
  | cons s ss ih =>
    simp only [run] at hr
    split at hr
    · cases hr
    · rename_i p1 e h1
      split at hr
      · cases hr
      · rename_i p2 es' h2
        cases hr
        rw [← List.append_assoc]
        exact ih (inv_step h h1) h2

theorem step_one {p p' : Proc} {s : Step} {e : List Event} (hs : step p s = some (p', e)) : e = [] ∨ ∃ x, e = [x] := by
  cases s <;> simp only [step] at hs <;> (repeat' split at hs) <;> cases hs <;> simp
  all_goals (cases p.cancelled <;> simp)

/-- The moment of an event. -/
theorem at_event {es0 : List Event} {p : Proc} (h : Inv es0 p) {ss : List Step} {p' : Proc} {pre post : List Event} {ev : Event} (hr : run p ss = some (p', pre ++ ev :: post)) :
    ∃ p1 s p2, Inv (es0 ++ pre) p1 ∧ step p1 s = some (p2, [ev]) := by
  induction ss generalizing es0 p pre with
  | nil => simp [run] at hr
  | cons s ss ih =>
    simp only [run] at hr
    split at hr
    · cases hr
    · rename_i p1 e h1
      split at hr
      · cases hr
      · rename_i p2 es' h2
        simp only [Option.some.injEq, Prod.mk.injEq] at hr
        obtain ⟨rfl, he⟩ := hr
        rcases step_one h1 with rfl | ⟨x, rfl⟩
        · simp only [List.nil_append] at he
          obtain ⟨q1, s', q2, h3, h4⟩ := ih (by simpa using inv_step h h1) (by rw [h2, he])
          exact ⟨q1, s', q2, by simpa using h3, h4⟩
        · cases pre with
          | nil =>
            simp only [List.nil_append, List.cons_append, List.cons.injEq] at he
            exact ⟨p, s, p1, by simpa using h, by rw [h1, he.1]⟩
          | cons y pre =>
            simp only [List.nil_append, List.cons_append, List.cons.injEq] at he
            obtain ⟨rfl, rfl⟩ := he
            obtain ⟨q1, s', q2, h3, h4⟩ := ih (inv_step h h1) h2
            exact ⟨q1, s', q2, by simpa using h3, h4⟩

end Mn

/-- **C84.** However starting goes and whenever the server is stopped, the parts are made in this order, and when `run` has returned, every part that was made has been closed, once, in reverse order. -/
theorem C84_order {ss : List Step} {p : Proc} {es : List Event} (h : run .init ss = some (p, es)) :
    opens es <+: [.database, .dictionary, .index, .sequence, .service, .listener, .server, .telemetry] ∧ (p.phase = .returned → closes es = (opens es).reverse) := by
  have hi := inv_run inv_init h
  rw [List.nil_append] at hi
  refine ⟨?_, fun hp => ?_⟩
  · rw [hi.made]; exact List.take_prefix ..
  · rw [hi.stack, hi.returned hp, List.append_nil]

/-- **C84.** When a part is closed, those that were made after it have been closed and those that were made before it are still open: the sequence of sample ids and the dictionary, whose closing writes to the database, are closed while it is open. -/
theorem C84_nested {ss : List Step} {p : Proc} {pre post : List Event} {x : Part} (h : run .init ss = some (p, pre ++ .closed x :: post)) :
    ∃ before after, opens pre = before ++ x :: after ∧ closes pre = after.reverse := by
  obtain ⟨p1, s, p2, hi, hs⟩ := at_event inv_init h
  rw [List.nil_append] at hi
  cases s <;> simp only [step] at hs <;> (repeat' split at hs) <;> try (simp at hs; done)
  rename_i y l hp hd
  simp only [Option.some.injEq, Prod.mk.injEq, List.cons.injEq, Event.closed.injEq, and_true] at hs
  obtain ⟨-, rfl⟩ := hs
  refine ⟨l.reverse, (closes pre).reverse, ?_, by simp⟩
  have := congrArg List.reverse hi.stack
  rw [List.reverse_reverse, hd] at this
  rw [this]; simp

/-- **C84.** Nothing is closed before a part could not be made or the server was told to stop (or its listener ended). -/
theorem C84_stays_open {ss : List Step} {p : Proc} {pre post : List Event} {x : Part} (h : run .init ss = some (p, pre ++ .closed x :: post)) :
    .cancelled ∈ pre ∨ ∃ y, .failed y ∈ pre := by
  obtain ⟨p1, s, p2, hi, hs⟩ := at_event inv_init h
  rw [List.nil_append] at hi
  cases s <;> simp only [step] at hs <;> (repeat' split at hs) <;> try (simp at hs; done)
  rename_i y l hp hd
  rcases hi.leaving (.inl hp) with ⟨h1, -⟩ | ⟨x, h1, -⟩
  · exact .inl h1
  · exact .inr ⟨x, h1⟩

/-- **C84.** One failure is not handled: if the address cannot be listened on, the process ends with the database, the dictionary, the index and the sequence open. `run` ends the process in no other way. -/
theorem C84_exit {ss : List Step} {p : Proc} {es : List Event} (h : run .init ss = some (p, es)) (hp : p.phase = .exited) :
    opens es = [.database, .dictionary, .index, .sequence, .service] ∧ closes es = [] ∧ .failed .listener ∈ es := by
  have hi := inv_run inv_init h
  rw [List.nil_append] at hi
  exact hi.exited hp

/-- **C84.** Flushes and requests use parts only when all have been made; a part that is closed is used only after the server was told to stop. -/
theorem C84_uses {ss : List Step} {p : Proc} {pre post : List Event} {x : Part} {isOpen : Bool} (h : run .init ss = some (p, pre ++ .used x isOpen :: post)) :
    opens pre = [.database, .dictionary, .index, .sequence, .service, .listener, .server, .telemetry] ∧ (isOpen = false → .closed x ∈ pre ∧ .cancelled ∈ pre) ∧ (isOpen = true → .closed x ∉ pre) := by
  obtain ⟨p1, s, p2, hi, hs⟩ := at_event inv_init h
  rw [List.nil_append] at hi
  have key : opens pre = all → x ∈ all → isOpen = decide (x ∈ p1.defers) →
      opens pre = all ∧ (isOpen = false → .closed x ∈ pre ∧ .cancelled ∈ pre) ∧ (isOpen = true → .closed x ∉ pre) := by
    intro ho hx hop
    have hmem : x ∈ closes pre ∨ x ∈ p1.defers := by
      rw [← List.mem_append, ← hi.stack, ho]; simpa using hx
    have hnd : (closes pre ++ p1.defers).Nodup := by rw [← hi.stack, ho]; decide
    refine ⟨ho, fun hf => ?_, fun ht => ?_⟩
    · have hnot : x ∉ p1.defers := by simpa [hf] using hop
      have hc := hmem.resolve_right hnot
      refine ⟨mem_closes.1 hc, ?_⟩
      have hl : p1.phase = .leaving ∨ p1.phase = .returned := by
        cases hp : p1.phase with
        | starting l => rw [(hi.starting l hp).2.1] at hc; cases hc
        | waiting => rw [(hi.waiting hp).2.1] at hc; cases hc
        | leaving => exact .inl rfl
        | returned => exact .inr rfl
        | exited => rw [(hi.exited hp).2.1] at hc; cases hc
      rcases hi.leaving hl with ⟨h1, -⟩ | ⟨x, -, h2⟩
      · exact h1
      · exact absurd ho h2
    · intro hc
      have h1 : x ∈ p1.defers := by simpa [ht] using hop
      exact (List.nodup_append.1 hnd).2.2 x (mem_closes.2 hc) x h1 rfl
  cases s <;> simp only [step] at hs <;> (repeat' split at hs) <;> try (simp at hs; done)
  all_goals try (cases hcc : p1.cancelled <;> simp [hcc] at hs; done)
  all_goals
    rename_i hb
    simp only [Option.some.injEq, Prod.mk.injEq, List.cons.injEq, Event.used.injEq, and_true] at hs
    obtain ⟨-, rfl, rfl⟩ := hs
  · refine key (hi.busy (.inr (.inl hb.1))) ?_ rfl
    exact (by decide : ∀ y ∈ flushParts, y ∈ all) _ hb.2
  · exact key (hi.busy (.inr (.inr (.inr hb)))) (by decide) rfl

/-- **C84.** Nobody waits for a flush or for requests: it happens that a flush uses the database, and a request the sequence of sample ids, after it was closed. -/
theorem C84_use_after_close : (∃ ss p es, run .init ss = some (p, es) ∧ .used .database false ∈ es) ∧ (∃ ss p es, run .init ss = some (p, es) ∧ .used .sequence false ∈ es ∧ .used .database false ∉ es) :=
  ⟨⟨List.replicate 8 (.make true) ++ [.wait, .ticked, .flushUse .database, .signal, .leave] ++ List.replicate 8 .close ++ [.flushUse .database], _, _, rfl, by decide⟩,
   ⟨List.replicate 8 (.make true) ++ [.wait, .arrive, .signal, .leave] ++ List.replicate 5 .close ++ [.save], _, _, rfl, by decide, by decide⟩⟩

/-- The steps that `run` makes by itself. -/
def Mn.Step.own : Step → Bool
  | .make ok => ok
  | .wait | .leave | .close | .ret => true
  | _ => false

theorem Mn.run_append {p : Proc} (ss ss' : List Step) : run p (ss ++ ss') = (run p ss).bind fun x => (run x.1 ss').map fun y => (y.1, x.2 ++ y.2) := by
  induction ss generalizing p with
  | nil => simp [run]
  | cons s ss ih =>
    simp only [List.cons_append, run]
    cases step p s with
    | none => rfl
    | some x =>
      simp only [ih]
      cases run x.1 ss with
      | none => rfl
      | some y =>
        simp only [Option.bind_some]
        cases run y.1 ss' with
        | none => rfl
        | some z => simp

theorem Mn.closing : ∀ (l : List Part) (p : Proc), p.phase = .leaving → p.defers = l → ∃ ss p' es, run p ss = some (p', es) ∧ p'.phase = .returned ∧ ∀ s ∈ ss, s.own
  | [], p, hp, hd => ⟨[.ret], { p with phase := .returned }, [], by simp [run, step, hp, hd], rfl, by simp [Step.own]⟩
  | x :: l, p, hp, hd => by
    obtain ⟨ss, p', es, h1, h2, h3⟩ := closing l { p with defers := l } hp rfl
    exact ⟨.close :: ss, p', [.closed x] ++ es, (by rw [hp] at h1; simp [run, step, hp, hd, h1]), h2, by simpa [Step.own] using h3⟩

theorem Mn.starting_on : ∀ (l : List (Part × OnFail)) (p : Proc), p.phase = .starting l → p.cancelled = true → ∃ ss p' es, run p ss = some (p', es) ∧ p'.phase = .returned ∧ ∀ s ∈ ss, s.own
  | [], p, hp, hc => by
    obtain ⟨ss, p', es, h1, h2, h3⟩ := closing _ { p with phase := .leaving, ticker := true, serving := true } rfl rfl
    exact ⟨.wait :: .leave :: ss, p', es, (by rw [hc] at h1; simp [run, step, hp, hc, h1]), h2, by simpa [Step.own] using h3⟩
  | (x, f) :: l, p, hp, hc => by
    obtain ⟨ss, p', es, h1, h2, h3⟩ := starting_on l { p with phase := .starting l, defers := x :: p.defers } rfl hc
    exact ⟨.make true :: ss, p', [.opened x] ++ es, by simp [run, step, hp, h1], h2, by simpa [Step.own] using h3⟩

/-- **C84.** The server can always be stopped: after an interrupt at any moment, `run` returns by its own steps, whatever the others do or do not. -/
theorem C84_stops {ss : List Step} {p : Proc} {es : List Event} (h : run .init ss = some (p, es)) (hp : p.phase ≠ .exited) (hq : p.phase ≠ .returned) :
    ∃ ss' p' es', run .init (ss ++ .signal :: ss') = some (p', es') ∧ p'.phase = .returned ∧ ∀ s ∈ ss', s.own := by
  have hsig : ∃ e, step p .signal = some ({ p with cancelled := true }, e) := by
    simp only [step]
    split <;> first | contradiction | exact ⟨_, rfl⟩
  obtain ⟨e, he⟩ := hsig
  suffices hgo : ∃ ss' p' es', run { p with cancelled := true } ss' = some (p', es') ∧ p'.phase = .returned ∧ ∀ s ∈ ss', s.own by
    obtain ⟨ss', p', es', h1, h2, h3⟩ := hgo
    exact ⟨ss', p', es ++ (e ++ es'), by simp [run_append, h, run, he, h1], h2, h3⟩
  cases hph : p.phase with
  | starting l => exact starting_on l _ rfl rfl
  | waiting =>
    obtain ⟨ss, p', es, h1, h2, h3⟩ := closing _ { p with phase := .leaving, cancelled := true } rfl rfl
    exact ⟨.leave :: ss, p', es, by simp [run, step, h1], h2, by simpa [Step.own] using h3⟩
  | leaving => exact closing _ _ rfl rfl
  | returned => exact absurd hph hq
  | exited => exact absurd hph hp

/-! ## Examples -/

/-- The server starts, flushes, saves, is interrupted during a request and returns. -/
example : (run .init (List.replicate 8 (.make true) ++ [.wait, .ticked, .flushUse .dictionary, .flushUse .index, .flushEnds, .arrive, .signal, .save, .leave] ++ List.replicate 8 .close ++ [.ret])).map
    (fun x => (x.1.phase, (opens x.2).length, closes x.2)) =
    some (.returned, 8, [.telemetry, .server, .listener, .service, .sequence, .index, .dictionary, .database]) := by decide
/-- The sequence cannot be made: three parts are closed. -/
example : (run .init ([.make true, .make true, .make true, .make false] ++ List.replicate 3 .close ++ [.ret])).map (fun x => (x.1.phase, closes x.2)) =
    some (.returned, [.index, .dictionary, .database]) := by decide
/-- The address is in use. -/
example : (run .init (List.replicate 5 (.make true) ++ [.make false])).map (fun x => (x.1.phase, closes x.2)) = some (.exited, []) := by decide

end Verif
