import Verif.Lemmas.EndToEnd
import Verif.Lemmas.Agree
import Verif.Lemmas.Consec
import Verif.Props.RealDict
import Verif.Props.Js
/-!
# C52, C53: from requests to answers
-/
namespace Verif.Sv
open St (Flush Outcome)
variable {σ : Type} {D : Dict σ} {bw : Nat}

theorem step_frame {P : Data → Prop} {s s' : Svc σ} {es e : List (Event σ)} {k : Nat} {l : Label σ} (hi : Inv P bw s es k)
    (ho : ∀ fl, l = .save fl → ∀ m, (fl.viewOrder m).Perm m) (ha : Df.All P s.store.frame) (h : step D bw s l = some (s', e)) : Df.All P s'.store.frame := by
  by_cases hr : ∃ st c, l = .restart st c
  · obtain ⟨st, c, rfl⟩ := hr
    simp only [step] at h
    split at h
    · rename_i s1 h1
      cases h
      unfold start at h1
      split at h1 <;> cases h1
      exact ha
    · cases h
  · have h' : live D bw s l = some (s', e) := by
      cases l <;> first | exact absurd ⟨_, _, rfl⟩ hr | (simp only [step] at h; split at h <;> first | cases h; done | exact h)
    by_cases hsv : ∃ fl, l = .save fl
    · obtain ⟨fl, rfl⟩ := hsv
      simp only [live] at h'
      split at h' <;> cases h'
      rename_i x hf
      refine St.save_all s.store { fl with samples := s.lists x } (ho fl rfl) ha fun y hy => hi.payload.1 y ?_
      have hin : inHand s = s.lists x := by unfold inHand; rw [hf]
      unfold allOf; rw [hin]; simp only [List.mem_append]
      exact .inl (.inr hy)
    · have hst : s'.store = s.store := by
        cases l <;> simp only [live] at h'
        case number t =>
          split at h'
          · split at h' <;> (cases h'; rfl)
          · cases h'
        case swap pick =>
          split at h' <;> cases h'
          rw [get_new hi.pool]; rfl
        case cancel => cases h'; rfl
        case save fl => exact absurd ⟨_, rfl⟩ hsv
        case restart => cases h'
        all_goals (split at h' <;> (cases h'; try rfl))
      rw [hst]; exact ha

theorem run_frame {P : Data → Prop} (hpos : 0 < bw) : ∀ (ls : List (Label σ)) {s s' : Svc σ} {es e : List (Event σ)} {k : Nat},
    Inv P bw s es k → k + (ls.map (cost bw)).sum + bw < 2 ^ 64 → (∀ t d, .call t d ∈ ls → P d) → (∀ fl, .save fl ∈ ls → ∀ m, (fl.viewOrder m).Perm m) →
    run D bw s ls = some (s', e) → Df.All P s.store.frame → Df.All P s'.store.frame := by
  intro ls
  induction ls with
  | nil => intro s s' es e k _ _ _ _ h ha; cases h; exact ha
  | cons l ls ih =>
    intro s s' es e k hi hk hP ho h ha
    simp only [List.map_cons, List.sum_cons] at hk
    simp only [run] at h
    split at h
    · cases h
    · rename_i s1 e1 hstep
      split at h
      · cases h
      · rename_i s2 e2 hrun
        cases h
        have hi' := step_inv hpos hi (by omega) (fun t d e => hP t d (by simp [e])) hstep
        exact ih hi' (by omega) (fun t d h => hP t d (by simp [h])) (fun fl h => ho fl (by simp [h])) hrun
          (step_frame hi (fun fl e => ho fl (by simp [e])) ha hstep)

/-- **C52.** Nothing is invented: whatever the schedule of exports, flushes (cut off anywhere), crashes and restarts, and whatever
dictionary is used, every log record, span and data point in the answer to any scan was in a request; even if the index and the
dictionary are of another moment than the data frame, or are damaged. -/
theorem C52_nothing_invented (hpos : 0 < bw) {db : KV} (hdb : db Sq.seqKey = none) (st : σ) (ls : List (Label σ)) {s0 s : Svc σ} {es : List (Event σ)}
    (h0 : init bw st db = some s0) (h : run D bw s0 ls = some (s, es)) (hb : used bw ls + bw < 2 ^ 64)
    (ho : ∀ fl, .save fl ∈ ls → ∀ m, (fl.viewOrder m).Perm m) (idx : Sh.Store) (ctx : Tf.Ctx σ) (E : St.Env) (hE : ∀ m, (E.resOrder m).Perm m) (sc : St.Scan) :
    ∀ x ∈ (St.scan D { s.store with idx := idx, ctx := ctx } E sc).items, Sent ls x := by
  obtain ⟨s', h1, h2, h3⟩ := init_inv (P := fun d => ∃ t, .call t d ∈ ls) (bw := bw) (st := st) hdb
  rw [h0] at h1; cases h1
  have ha := run_frame hpos ls h2 (by rw [used_eq]; omega) (fun t d h => ⟨t, h⟩) ho h (by rw [h3]; intro v r hr; cases hr)
  intro x hx
  obtain ⟨d, ⟨t, hd⟩, hx⟩ := St.scan_items (P := fun d => ∃ t, .call t d ∈ ls) (s := { s.store with idx := idx, ctx := ctx }) ha hE sc x hx
  exact ⟨t, d, hd, hx⟩

/-- Also for the scans of scripts: they return records of the answer of the store, in order, each at most as often. -/
theorem C52_scripts (P : Vs.Hashes) (f : St.Scan → St.Result) (clock : Int) (a : St.Scan) :
    (Js.jsScan P (some f) clock a).items.Sublist (f a).items ∧ (Js.queryScan P f clock a).items.Sublist (f a).items := by
  have key : ∀ g : St.Scan → St.Result, (Js.jsScan P (some g) clock a).items.Sublist (g a).items := by
    intro g
    simp only [Js.jsScan]
    cases hg : g a with
    | err => exact .slnil
    | panic => exact .slnil
    | undefined => exact .slnil
    | data d =>
      simp only
      split
      · exact List.Sublist.refl _
      · cases d with
        | none => exact .slnil
        | some d =>
          simp only
          split
          · exact List.nil_sublist _
          · rename_i out hv
            exact Vs.visit_sublist hv
  refine ⟨key f, (key _).trans ?_⟩
  cases f a with
  | data d => cases d <;> exact List.Sublist.refl _
  | _ => exact .slnil

/-! ## The events and the history of the store -/

theorem step_store {s s' : Svc σ} {e : List (Event σ)} {l : Label σ} (h : step D bw s l = some (s', e)) :
    (∃ fl, e = [.flushed fl (St.saveSamples D s.store fl).2] ∧ s'.store = (St.saveSamples D s.store fl).1) ∨
    (∃ st, e = [.restarted st] ∧ s'.store = St.step D s.store (.restart st)) ∨
    ((e = [] ∨ ∃ d, e = [.returned d]) ∧ s'.store = s.store) := by
  by_cases hr : ∃ st c, l = .restart st c
  · obtain ⟨st, c, rfl⟩ := hr
    simp only [step] at h
    split at h
    · rename_i s1 h1
      cases h
      unfold start at h1
      split at h1 <;> cases h1
      exact .inr (.inl ⟨st, rfl, rfl⟩)
    · cases h
  · obtain ⟨h', -⟩ := step_no_restart (fun st c e => hr ⟨st, c, e⟩) h
    cases l <;> simp only [live] at h'
    case save fl =>
      split at h' <;> cases h'
      exact .inl ⟨_, rfl, rfl⟩
    case number t =>
      split at h'
      · split at h' <;> (cases h'; exact .inr (.inr ⟨.inl rfl, rfl⟩))
      · cases h'
    case swap pick =>
      split at h' <;> cases h'
      refine .inr (.inr ⟨.inl rfl, ?_⟩)
      unfold get
      split
      · split <;> rfl
      · rfl
    case cancel => cases h'; exact .inr (.inr ⟨.inl rfl, rfl⟩)
    case restart => cases h'
    case ret =>
      split at h' <;> cases h'
      exact .inr (.inr ⟨.inr ⟨_, rfl⟩, rfl⟩)
    all_goals (split at h' <;> (cases h'; try exact .inr (.inr ⟨.inl rfl, rfl⟩)))

/-- The flags of the samples are the outcomes of the flushes. -/
theorem offered_ok : ∀ (ls : List (Label σ)) {s s' : Svc σ} {e : List (Event σ)} (r : Int), run D bw s ls = some (s', e) →
    (∀ fl o, .flushed fl o ∈ e → o = .ok) → ∀ x ∈ St.offered D s.store r (opsOf e), x.ok = true := by
  intro ls
  induction ls with
  | nil => intro s s' e r h _ x hx; cases h; cases hx
  | cons l ls ih =>
    intro s s' e r h hok x hx
    simp only [run] at h
    split at h
    · cases h
    · rename_i s1 e1 hstep
      split at h
      · cases h
      · rename_i s2 e2 hrun
        cases h
        have ih := fun r => ih r hrun (fun fl o hm => hok fl o (List.mem_append_right _ hm))
        rw [opsOf_append] at hx
        rcases step_store hstep with ⟨fl, rfl, hs⟩ | ⟨st, rfl, hs⟩ | ⟨he, hs⟩
        · have ho := hok fl (St.saveSamples D s.store fl).2 (by simp)
          have e1 : opsOf [Event.flushed (σ := σ) fl (St.saveSamples D s.store fl).2] = [.flush fl] := by rw [ho]; rfl
          rw [e1, List.singleton_append] at hx
          simp only [St.offered, ← hs] at hx
          rcases List.mem_append.1 hx with hx | hx
          · rw [ho] at hx
            have : ∀ (r : Int) (ss : List Sample), ∀ x ∈ St.tag (Outcome.ok == Outcome.ok) r ss, x.ok = true := by
              intro r ss
              induction ss generalizing r with
              | nil => intro x hx; cases hx
              | cons y ss ih => intro x hx; rcases List.mem_cons.1 hx with rfl | hx; rfl; exact ih _ x hx
            exact this _ _ x hx
          · exact ih _ x hx
        · have e1 : opsOf [Event.restarted st] = [.restart st] := rfl
          rw [e1, List.singleton_append] at hx
          simp only [St.offered, ← hs] at hx
          exact ih _ x hx
        · have e1 : opsOf e1 = [] := by rcases he with rfl | ⟨d, rfl⟩ <;> rfl
          rw [e1, List.nil_append, ← hs] at hx
          exact ih _ x hx

theorem tag_res {R : Int → Prop} (hR : ∀ d : Data, ∀ r, d.signal = some r → R r) (ok : Bool) : ∀ (ss : List Sample) (r : Int), R r →
    (∀ x ∈ St.tag ok r ss, R x.res) ∧ R (ss.foldl (fun r x => x.data.signal.getD r) r) := by
  intro ss
  induction ss with
  | nil => intro r h; exact ⟨(fun x hx => nomatch hx), h⟩
  | cons s ss ih =>
    intro r h
    have h' : R (s.data.signal.getD r) := by
      cases hs : s.data.signal with
      | none => exact h
      | some q => exact hR _ _ hs
    obtain ⟨a, b⟩ := ih _ h'
    refine ⟨fun x hx => ?_, b⟩
    rcases List.mem_cons.1 hx with rfl | hx
    · exact h
    · exact a x hx

theorem offered_res {R : Int → Prop} (h0 : R 0) (hR : ∀ d : Data, ∀ r, d.signal = some r → R r) : ∀ (ops : List (St.Op σ)) (s : St.Store σ) (r : Int), R r →
    ∀ x ∈ St.offered D s r ops, R x.res := by
  intro ops
  induction ops with
  | nil => intro s r _ x hx; cases hx
  | cons op ops ih =>
    intro s r hr x hx
    cases op with
    | flush fl =>
      simp only [St.offered] at hx
      obtain ⟨a, b⟩ := tag_res hR ((St.saveSamples D s fl).2 == .ok) fl.samples r hr
      rcases List.mem_append.1 hx with hx | hx
      · exact a x hx
      · exact ih _ _ b x hx
    | restart st =>
      simp only [St.offered] at hx
      exact ih _ _ h0 x hx

theorem flushed_no_exit {es : List (Event σ)} (h : ∀ fl o, .flushed fl o ∈ es → o = .ok) :
    ((opsOf es).flatMap fun op => match op with | .flush fl => fl.samples | .restart _ => []) = flushedOf es := by
  induction es with
  | nil => rfl
  | cons e es ih =>
    have ih := ih fun fl o hm => h fl o (List.mem_cons_of_mem _ hm)
    unfold opsOf flushedOf at *
    rw [List.flatMap_cons]
    cases e with
    | returned d => simpa using ih
    | restarted st => simpa using ih
    | flushed fl o =>
      rw [h fl o (by simp), List.filterMap_cons_some (by simp; rfl), List.flatMap_cons, ih]

theorem lifeOf_self {es : List (Event σ)} (h : ∀ st, .restarted st ∉ es) : lifeOf es = es := by
  have := lifeOf_append (a := []) h
  simpa [lifeOf] using this

/-- The labels of everything offered are covered. -/
theorem covered (hpos : 0 < bw) {db : KV} (hdb : db Sq.seqKey = none) (st : σ) {ls : List (Label σ)} {s0 s : Svc σ} {es : List (Event σ)}
    (h0 : init bw st db = some s0) (h : run D bw s0 ls = some (s, es)) (hb : used bw ls + bw < 2 ^ 64) {K : List Bytes} (hK : Covers K ls) :
    ∀ o ∈ St.samplesOf D st (opsOf es), ∀ l, o.Uses l → l.encode ∈ K := by
  have hi : Inv (fun d => ∃ t, .call t d ∈ ls) bw s es _ := reachable_inv hpos hdb st h0 h hb (fun t d h => ⟨t, h⟩)
  intro o ho l hl
  rcases hl with hl | rfl
  · have h1 : o.sample ∈ (St.samplesOf D st (opsOf es)).map (·.sample) := List.mem_map_of_mem ho
    unfold St.samplesOf at h1
    rw [offered_samples] at h1
    have h2 := (ops_sublist es).subset h1
    obtain ⟨t, ht⟩ := hi.payload.1 o.sample (by unfold allOf; simp [h2])
    exact hK.data t _ ht l hl
  · refine hK.res _ (offered_res (R := fun r => r ∈ [Res.unknown, Res.metrics, Res.logs, Res.traces]) (by decide) ?_ _ _ 0 (by decide) o ho)
    intro d r hr
    cases d <;> simp [Data.signal] at hr <;> subst hr <;> decide

end Verif.Sv
