import Verif.Spec.PoolFail
import Verif.Lemmas.Pool
/-! # What programs ask, whatever is answered -/
namespace Verif.Pl
open St (Scan Env Result Flush Outcome)
open Bt (Frags)
variable {Q A α β : Type}

/-- Whatever its objects are and whatever is answered, the program ends with a log and a result as `Φ` says. -/
def Prog.Logs : Prog Q A α → (List (Q × A) → α → Prop) → Prop
  | .done a, Φ => Φ [] a
  | .get _ k, Φ => ∀ n, (k n).Logs Φ
  | .act _ _ k, Φ => ∀ o, (k o).Logs Φ
  | .put _ k, Φ => k.Logs Φ
  | .ask q k, Φ => ∀ a, (k a).Logs fun log x => Φ ((q, a) :: log) x

theorem Prog.logs_mono : ∀ (p : Prog Q A α) {Φ Ψ : List (Q × A) → α → Prop}, (∀ l a, Φ l a → Ψ l a) → p.Logs Φ → p.Logs Ψ := by
  intro p
  induction p with
  | done a => intro Φ Ψ h hp; exact h _ _ hp
  | get κ k ih => intro Φ Ψ h hp n; exact ih n h (hp n)
  | act r f k ih => intro Φ Ψ h hp o; exact ih o h (hp o)
  | put r k ih => intro Φ Ψ h hp; exact ih h hp
  | ask q k ih => intro Φ Ψ h hp a; exact ih a (fun l x => h _ _) (hp a)

theorem Prog.logs_bind (g : α → Prog Q A β) : ∀ (p : Prog Q A α) {Φ : List (Q × A) → β → Prop}, (p.Logs fun l a => (g a).Logs fun l' b => Φ (l ++ l') b) → (p >>= g).Logs Φ := by
  intro p
  rw [Prog.bind_eq]
  induction p with
  | done a => intro Φ h; exact h
  | get κ k ih => intro Φ h n; exact ih n (h n)
  | act r f k ih => intro Φ h o; exact ih o (h o)
  | put r k ih => intro Φ h; exact ih h
  | ask q k ih => intro Φ h a; exact ih a (h a)

theorem logs_seq {p : Prog Q A α} {g : α → Prog Q A β} {Ψ : List (Q × A) → α → Prop} {Φ : List (Q × A) → β → Prop} (h : p.Logs Ψ)
    (hg : ∀ l a, Ψ l a → (g a).Logs fun l' b => Φ (l ++ l') b) : (p >>= g).Logs Φ := Prog.logs_bind g p (Prog.logs_mono p hg h)
theorem logs_take {κ : Kind} {g : Nat → Prog Q A β} {Φ : List (Q × A) → β → Prop} (h : ∀ n, (g n).Logs Φ) : (take κ >>= g).Logs Φ := h
theorem logs_use {r : Nat} {f : Obj → Obj} {g : Obj → Prog Q A β} {Φ : List (Q × A) → β → Prop} (h : ∀ o, (g o).Logs Φ) : (use r f >>= g).Logs Φ := fun o => h (f o)
theorem logs_look {r : Nat} {g : Obj → Prog Q A β} {Φ : List (Q × A) → β → Prop} (h : ∀ o, (g o).Logs Φ) : (look r >>= g).Logs Φ := fun o => h (id o)
theorem logs_give {r : Nat} {g : Unit → Prog Q A β} {Φ : List (Q × A) → β → Prop} (h : (g ()).Logs Φ) : (give r >>= g).Logs Φ := h
theorem logs_ask {q : Q} {g : A → Prog Q A β} {Φ : List (Q × A) → β → Prop} (h : ∀ a, (g a).Logs fun l b => Φ ((q, a) :: l) b) : (ask q >>= g).Logs Φ := h
theorem logs_pure {a : β} {Φ : List (Q × A) → β → Prop} (h : Φ [] a) : (pure a : Prog Q A β).Logs Φ := h

theorem logs_alone [DecidableEq Q] {Φ : List (Q × A) → α → Prop} : ∀ (p : Prog Q A α) (l : Own) (log : List (Q × A)) (a : α) (l' : Own),
    p.Logs Φ → alone replay p log l = some (a, [], l') → Φ log a := by
  intro p
  induction p generalizing Φ with
  | done a =>
    intro l log a' l' h1 h3
    simp only [alone, Option.some.injEq, Prod.mk.injEq] at h3
    obtain ⟨rfl, rfl, rfl⟩ := h3
    exact h1
  | get κ k ih => intro l log a' l' h1 h3; exact ih _ _ _ _ _ (h1 _) h3
  | act r f k ih =>
    intro l log a' l' h1 h3
    simp only [alone] at h3
    split at h3
    · cases h3
    · exact ih _ _ _ _ _ (h1 _) h3
  | put r k ih =>
    intro l log a' l' h1 h3
    simp only [alone] at h3
    split at h3
    · cases h3
    · exact ih _ _ _ _ h1 h3
  | ask q k ih =>
    intro l log a' l' h1 h3
    cases log with
    | nil => simp [alone, replay] at h3
    | cons x log =>
      obtain ⟨q', a⟩ := x
      simp only [alone, replay] at h3
      by_cases hq : q' = q
      · subst hq
        simp only [if_pos] at h3
        exact ih a (Φ := fun log x => Φ ((q', a) :: log) x) _ _ _ _ (h1 a) h3
      · simp [hq] at h3

/-! ## Stopping at the first failure -/

/-- The log of a piece of a program: its questions are as `B` says, all but the last were answered, and the last was too if the piece was successful. -/
structure Piece (W : Q → A → Bool) (B : Q → Prop) (ok : Bool) (log : List (Q × A)) : Prop where
  kind : ∀ x ∈ log, B x.1
  stop : ∀ x ∈ log.dropLast, W x.1 x.2 = true
  ok : ok = true → ∀ x ∈ log, W x.1 x.2 = true

variable {W : Q → A → Bool} {B B' : Q → Prop}

theorem Piece.nil (ok : Bool) : Piece W B ok [] := ⟨by simp, by simp, by simp⟩
theorem Piece.one {q : Q} {a : A} {ok : Bool} (hB : B q) (h : ok = true → W q a = true) : Piece W B ok [(q, a)] := ⟨by simpa using hB, by simp, by simpa using h⟩
theorem Piece.weak {ok : Bool} {log : List (Q × A)} (h : Piece W B ok log) (hB : ∀ q, B q → B' q) {ok' : Bool} (ho : ok' = true → ok = true) : Piece W B' ok' log :=
  ⟨fun x hx => hB _ (h.kind x hx), h.stop, fun e => h.ok (ho e)⟩
theorem Piece.append {ok : Bool} {l l' : List (Q × A)} (h : Piece W B true l) (h' : Piece W B ok l') : Piece W B ok (l ++ l') := by
  refine ⟨?_, ?_, ?_⟩
  · intro x hx; rcases List.mem_append.mp hx with hx | hx
    · exact h.kind x hx
    · exact h'.kind x hx
  · intro x hx
    cases l' with
    | nil => exact h.ok rfl x (List.dropLast_subset _ (by simpa using hx))
    | cons y l' =>
      rw [List.dropLast_append_of_ne_nil (by simp)] at hx
      rcases List.mem_append.mp hx with hx | hx
      · exact h.ok rfl x hx
      · exact h'.stop x hx
  · intro e x hx; rcases List.mem_append.mp hx with hx | hx
    · exact h.ok rfl x hx
    · exact h'.ok e x hx
theorem Piece.cons {ok : Bool} {q : Q} {a : A} {l' : List (Q × A)} (hB : B q) (h : W q a = true) (h' : Piece W B ok l') : Piece W B ok ((q, a) :: l') :=
  Piece.append (Piece.one hB fun _ => h) h'

/-! ## Tables that are written -/

theorem Kept.append {l l' : List (Ask × Ans)} (h : Kept l) (h' : Kept l') : Kept (l ++ l') := by
  intro p v r a q e
  rcases List.append_eq_append_iff.mp e with ⟨c, rfl, hc⟩ | ⟨c, rfl, hc⟩
  · rcases h' _ _ _ _ _ hc with ⟨p', rfl⟩ | ⟨p', x, rows, m, l1, t, rfl, hp⟩
    · exact .inl ⟨l ++ p', by simp⟩
    · exact .inr ⟨l ++ p', x, rows, m, l1, t, by simp, hp⟩
  · cases c with
    | nil =>
      simp only [List.nil_append] at hc
      rw [List.append_nil] at *
      rcases h' [] v r a q (by rw [hc]; rfl) with ⟨p', hp⟩ | ⟨p', x, rows, m, l1, t, hp, -⟩ <;> simp at hp
    | cons y c =>
      simp only [List.cons_append, List.cons.injEq] at hc
      obtain ⟨rfl, -⟩ := hc
      exact h p v r a c rfl

theorem kept_none {l : List (Ask × Ans)} (h : ∀ x ∈ l, ∀ v r, x.1 ≠ .write v r) : Kept l := by
  rintro p v r a q rfl
  exact absurd rfl (h (.write v r, a) (by simp) v r)

theorem write_last {pre p q : List (Ask × Ans)} {v v' : Bytes} {x r : Df.VRec} {a a' : Ans} (hw : ∀ y ∈ pre, ∀ v r, y.1 ≠ .write v r)
    (e : pre ++ [(.write v x, a)] = p ++ (.write v' r, a') :: q) : p = pre ∧ v' = v ∧ r = x := by
  rcases List.append_eq_append_iff.mp e with ⟨c, rfl, hc⟩ | ⟨c, rfl, hc⟩
  · cases c with
    | nil => simp only [List.nil_append, List.cons.injEq, Prod.mk.injEq, Ask.write.injEq] at hc; obtain ⟨⟨⟨rfl, rfl⟩, -⟩, -⟩ := hc; exact ⟨by simp, rfl, rfl⟩
    | cons y c => simp at hc
  · cases c with
    | nil => simp only [List.nil_append, List.cons.injEq, Prod.mk.injEq, Ask.write.injEq] at hc; obtain ⟨⟨⟨rfl, rfl⟩, -⟩, -⟩ := hc; exact ⟨by simp, rfl, rfl⟩
    | cons y c =>
      simp only [List.cons_append, List.cons.injEq] at hc
      obtain ⟨rfl, -⟩ := hc
      exact absurd rfl (hw (.write v' r, a') (by simp) v' r)

/-! ## Flushes -/

theorem translateAll_logs (pos : Nat) (ks : List Bytes) : (translateAll pos ks).Logs fun log ok => Piece Went (fun q => ∃ k, q = .translate k) ok log := by
  induction ks with
  | nil => exact logs_pure (.nil _)
  | cons k ks ih =>
    refine logs_ask fun a => ?_
    cases a with
    | id n => exact logs_use fun _ => Prog.logs_mono _ (fun l ok h => .cons ⟨_, rfl⟩ rfl h) ih
    | missing => exact logs_pure (.one ⟨_, rfl⟩ nofun)
    | failed => exact logs_pure (.one ⟨_, rfl⟩ nofun)
    | found => exact logs_pure (.one ⟨_, rfl⟩ nofun)
    | bits y => exact logs_pure (.one ⟨_, rfl⟩ nofun)
    | table y => exact logs_pure (.one ⟨_, rfl⟩ nofun)

theorem processAll_logs (resource : Int) (ss : List Sample) : (processAll resource ss).Logs fun log r => Piece Went (fun q => ∃ k, q = .translate k) r.isSome log := by
  induction ss generalizing resource with
  | nil => exact logs_pure (.nil _)
  | cons s ss ih =>
    rw [processAll]
    cases wanted resource s with
    | none => exact logs_pure (.nil _)
    | some w =>
      refine logs_take fun pos => logs_seq (translateAll_logs pos w.keys) ?_
      rintro l ok h
      cases ok with
      | false => exact logs_pure (by simpa using h)
      | true =>
        rw [if_pos rfl]
        refine logs_take fun q => logs_use fun _ => logs_seq (ih w.resource) ?_
        intro l' r h'
        cases r with
        | none => exact logs_pure (by simpa using h.append h')
        | some p => exact logs_pure (by simpa using h.append h')

theorem makeFragments_logs (es : List Held) (f : Frags) : (makeFragments es f).Logs fun log _ => log = [] := by
  induction es generalizing f with
  | nil => exact logs_pure rfl
  | cons e es ih =>
    refine logs_look fun ls => logs_look fun q => ?_
    cases Tm.viewsOf q.ymdh Tm.quantumYMDH with
    | none => exact logs_pure rfl
    | some vs => exact ih _

theorem releaseTimes_logs (es : List Held) : (releaseTimes es).Logs fun log _ => log = [] := by
  induction es with
  | nil => exact logs_pure rfl
  | cons e es ih => exact logs_give ih

theorem groupViews_logs (q : Nat) (ss : List Sample) (m : AMap Bytes (List Sample)) : (groupViews q ss m).Logs fun log _ => log = [] := by
  induction ss generalizing m with
  | nil => exact logs_pure rfl
  | cons s ss ih =>
    refine logs_use fun t => ?_
    cases Tm.viewsOf t.ymdh Tm.quantumYMDH with
    | none => exact logs_pure rfl
    | some vs => exact ih _

theorem setSample_logs (m l t : Nat) (s : Sample) : (setSample m l t s).Logs fun log _ => log = [] := by
  rw [setSample]
  cases s.data with
  | none => exact logs_pure rfl
  | metrics x => exact logs_use fun _ => logs_pure rfl
  | traces x => exact logs_use fun _ => logs_pure rfl
  | logs x => exact logs_use fun _ => logs_pure rfl

theorem appendLoop_logs (m l t g last : Nat) (ss : List Sample) : (appendLoop m l t g last ss).Logs fun log _ => log = [] := by
  induction ss generalizing last with
  | nil => exact logs_pure rfl
  | cons s ss ih =>
    refine logs_seq (setSample_logs m l t s) ?_
    rintro _ _ rfl
    exact logs_use fun _ => ih _

/-- A question to the tables of the views. -/
abbrev OfFrame (q : Ask) : Prop := q.base = .frame

theorem writeView_logs (v : Bytes) (m l t g : Nat) (r : List Data) :
    (writeView v m l t g r).Logs fun log ok => ∃ x a, r <+: x.rows ∧ log = [(.write v x, a)] ∧ (ok = true → Went (.write v x) a = true) := by
  refine logs_look fun b => logs_use fun _ => logs_look fun x => logs_look fun y => logs_look fun z => logs_ask fun a => ?_
  cases a with
  | found => exact logs_pure ⟨_, _, List.prefix_append .., rfl, fun _ => rfl⟩
  | missing => exact logs_pure ⟨_, _, List.prefix_append .., rfl, nofun⟩
  | failed => exact logs_pure ⟨_, _, List.prefix_append .., rfl, nofun⟩
  | id n => exact logs_pure ⟨_, _, List.prefix_append .., rfl, nofun⟩
  | bits n => exact logs_pure ⟨_, _, List.prefix_append .., rfl, nofun⟩
  | table n => exact logs_pure ⟨_, _, List.prefix_append .., rfl, nofun⟩

theorem loadSet_logs (kind : Int) (v : Bytes) (b : Nat) :
    (loadSet kind v b).Logs fun log ok => ∃ a, log = [(.ids kind v, a)] ∧ (ok = true → ∃ x, a = .bits x) := by
  refine logs_ask fun a => ?_
  cases a with
  | bits n => exact logs_use fun _ => logs_pure ⟨_, rfl, fun _ => ⟨_, rfl⟩⟩
  | found => exact logs_pure ⟨_, rfl, nofun⟩
  | missing => exact logs_pure ⟨_, rfl, nofun⟩
  | failed => exact logs_pure ⟨_, rfl, nofun⟩
  | id n => exact logs_pure ⟨_, rfl, nofun⟩
  | table n => exact logs_pure ⟨_, rfl, nofun⟩

/-- What is read of a view before it is written. -/
inductive LoadLog (v : Bytes) : Option (Option (List Data)) → List (Ask × Ans) → Prop where
  | missing : LoadLog v (some none) [(.view v, .missing)]
  | failed {log} (h : Piece Went OfFrame false log) (hw : ∀ x ∈ log, ∀ v r, x.1 ≠ .write v r) : LoadLog v none log
  | loaded {x : Ans} {rows : List Data} {m l t : Bm} (hx : x ≠ .failed) :
      LoadLog v (some (some rows)) [(.view v, x), (.table v, .table rows), (.ids Res.metrics v, .bits m), (.ids Res.logs v, .bits l), (.ids Res.traces v, .bits t)]

theorem went_view {v : Bytes} {x : Ans} (h : x ≠ .failed) : Went (.view v) x = true := by cases x <;> first | rfl | exact absurd rfl h

theorem loadTable_logs (v : Bytes) (m l t : Nat) {x : Ans} (hx : x ≠ .failed) :
    (do
      let a ← ask (.table v)
      match a with
      | .table rows => do
        let x ← loadSet Res.metrics v m
        if x then do
          let y ← loadSet Res.logs v l
          if y then do
            let z ← loadSet Res.traces v t
            if z then pure (some (some rows)) else pure none
          else pure none
        else pure none
      | _ => pure none : P (Option (Option (List Data)))).Logs fun log r => LoadLog v r ((.view v, x) :: log) := by
  have hv : ∀ {l}, Piece Went OfFrame false l → Piece Went OfFrame false ((.view v, x) :: l) := fun h => .cons rfl (went_view hx) h
  have hw : ∀ {l : List (Ask × Ans)}, (∀ y ∈ l, ∃ v, y.1 = .view v ∨ y.1 = .table v ∨ ∃ k, y.1 = .ids k v) → ∀ x ∈ l, ∀ v r, x.1 ≠ .write v r := by
    intro l h x hx v r e
    obtain ⟨v', h1 | h1 | ⟨k, h1⟩⟩ := h x hx <;> rw [e] at h1 <;> cases h1
  refine logs_ask fun a => ?_
  cases a with
  | table rows =>
    refine logs_seq (loadSet_logs Res.metrics v m) ?_
    rintro _ ok ⟨a1, rfl, h1⟩
    cases ok with
    | false =>
      exact logs_pure (.failed (hv (.cons rfl rfl (.one rfl nofun))) (hw (by simp)))
    | true =>
      obtain ⟨b1, rfl⟩ := h1 rfl
      refine logs_seq (loadSet_logs Res.logs v l) ?_
      rintro _ ok ⟨a2, rfl, h2⟩
      cases ok with
      | false => exact logs_pure (.failed (hv (.cons rfl rfl (.cons rfl rfl (.one rfl nofun)))) (hw (by simp)))
      | true =>
        obtain ⟨b2, rfl⟩ := h2 rfl
        refine logs_seq (loadSet_logs Res.traces v t) ?_
        rintro _ ok ⟨a3, rfl, h3⟩
        cases ok with
        | false => exact logs_pure (.failed (hv (.cons rfl rfl (.cons rfl rfl (.cons rfl rfl (.one rfl nofun))))) (hw (by simp)))
        | true =>
          obtain ⟨b3, rfl⟩ := h3 rfl
          exact logs_pure (.loaded hx)
  | found => exact logs_pure (.failed (hv (.one rfl nofun)) (hw (by simp)))
  | missing => exact logs_pure (.failed (hv (.one rfl nofun)) (hw (by simp)))
  | failed => exact logs_pure (.failed (hv (.one rfl nofun)) (hw (by simp)))
  | id n => exact logs_pure (.failed (hv (.one rfl nofun)) (hw (by simp)))
  | bits n => exact logs_pure (.failed (hv (.one rfl nofun)) (hw (by simp)))

theorem loadView_logs (v : Bytes) (m l t : Nat) : (loadView v m l t).Logs fun log r => LoadLog v r log := by
  refine logs_ask fun a => ?_
  cases a with
  | missing => exact logs_pure .missing
  | failed => exact logs_pure (.failed (.one rfl nofun) (by simp))
  | found => exact loadTable_logs v m l t nofun
  | id n => exact loadTable_logs v m l t nofun
  | bits n => exact loadTable_logs v m l t nofun
  | table n => exact loadTable_logs v m l t nofun

theorem updateView_logs (v : Bytes) (ss : List Sample) (m l t g : Nat) : (updateView v ss m l t g).Logs fun log ok => Piece Went OfFrame ok log ∧ Kept log := by
  refine logs_seq (loadView_logs v m l t) ?_
  rintro log r h
  cases h with
  | failed h hw => exact logs_pure (by rw [List.append_nil]; exact ⟨h, kept_none hw⟩)
  | missing =>
    refine logs_seq (appendLoop_logs m l t g _ ss) ?_
    rintro _ _ rfl
    refine Prog.logs_mono _ ?_ (writeView_logs v m l t g _)
    rintro _ ok ⟨x, a, hx, rfl, hok⟩
    refine ⟨.cons rfl rfl (.one rfl hok), ?_⟩
    intro p v' r a' q e
    obtain ⟨rfl, rfl, rfl⟩ := write_last (pre := [(.view v, .missing)]) (by simp) e
    exact .inl ⟨[], rfl⟩
  | loaded hx =>
    refine logs_seq (appendLoop_logs m l t g _ ss) ?_
    rintro _ _ rfl
    refine Prog.logs_mono _ ?_ (writeView_logs v m l t g _)
    rintro _ ok ⟨x, a, hx', rfl, hok⟩
    refine ⟨.cons rfl (went_view hx) (.cons rfl rfl (.cons rfl rfl (.cons rfl rfl (.cons rfl rfl (.one rfl hok))))), ?_⟩
    intro p v' r a' q e
    obtain ⟨rfl, rfl, rfl⟩ := write_last (pre := [(.view v, _), (.table v, .table _), (.ids Res.metrics v, .bits _), (.ids Res.logs v, .bits _), (.ids Res.traces v, .bits _)]) (by simp) e
    exact .inr ⟨[], _, _, _, _, _, rfl, hx'⟩

theorem appendView_logs (v : Bytes) (ss : List Sample) : (appendView v ss).Logs fun log ok => Piece Went OfFrame ok log ∧ Kept log := by
  refine logs_take fun m => logs_take fun l => logs_take fun t => logs_take fun g => logs_seq (updateView_logs v ss m l t g) ?_
  intro log ok h
  exact logs_give (logs_give (logs_give (logs_give (logs_pure (by rw [List.append_nil]; exact h)))))

theorem appendViews_logs (m : AMap Bytes (List Sample)) : (appendViews m).Logs fun log ok => Piece Went OfFrame ok log ∧ Kept log := by
  induction m with
  | nil => exact logs_pure ⟨.nil _, kept_none (by simp)⟩
  | cons e es ih =>
    refine logs_seq (appendView_logs e.1 e.2) ?_
    intro log ok h
    cases ok with
    | false => exact logs_pure (by rw [List.append_nil]; exact h)
    | true => exact Prog.logs_mono _ (fun l' ok' h' => ⟨h.1.append h'.1, h.2.append h'.2⟩) ih

theorem append_logs (order : AMap Bytes (List Sample) → AMap Bytes (List Sample)) (ss : List Sample) :
    (append order ss).Logs fun log ok => Piece Went OfFrame ok log ∧ Kept log := by
  refine logs_take fun q => logs_seq (groupViews_logs q ss []) ?_
  rintro _ m rfl
  cases m with
  | none => exact logs_pure ⟨.nil _, kept_none (by simp)⟩
  | some m => exact appendViews_logs _

theorem indexLoop_logs (bitsOrder : AMap Bytes Bm → AMap Bytes Bm) (f : Frags) : (indexLoop bitsOrder f).Logs fun log ok => Piece Went (fun q => ∃ k ws, q = .index k ws) ok log := by
  induction f with
  | nil => exact logs_pure (.nil _)
  | cons e f ih =>
    obtain ⟨k, vs⟩ := e
    refine logs_ask fun a => ?_
    cases a with
    | found => exact Prog.logs_mono _ (fun l ok h => .cons ⟨_, _, rfl⟩ rfl h) ih
    | missing => exact logs_pure (.one ⟨_, _, rfl⟩ nofun)
    | failed => exact logs_pure (.one ⟨_, _, rfl⟩ nofun)
    | id n => exact logs_pure (.one ⟨_, _, rfl⟩ nofun)
    | bits y => exact logs_pure (.one ⟨_, _, rfl⟩ nofun)
    | table y => exact logs_pure (.one ⟨_, _, rfl⟩ nofun)

/-- What a flush asks: translations, then views, then shards. -/
structure FlushLog (o : Outcome) (log : List (Ask × Ans)) : Prop where
  parts : ∃ a b c, log = a ++ b ++ c ∧ (∀ x ∈ a, ∃ k, x.1 = .translate k) ∧ (∀ x ∈ b, OfFrame x.1) ∧ (∀ x ∈ c, ∃ k ws, x.1 = .index k ws)
  stop : ∀ x ∈ log.dropLast, Went x.1 x.2 = true
  bad : ∀ x ∈ log, Went x.1 x.2 = false → o = if x.1.base = .dict then .exit else .err
  exit : o = .exit → ∀ x ∈ log, ∃ k, x.1 = .translate k
  kept : Kept log

theorem saveAll_logs (fl : Flush) (ss : List Sample) (f : Frags) : (saveAll fl ss f).Logs fun log o =>
    (∃ b c, log = b ++ c ∧ (∀ x ∈ b, OfFrame x.1) ∧ (∀ x ∈ c, ∃ k ws, x.1 = .index k ws)) ∧ Piece Went (fun _ => True) (decide (o = .ok)) log ∧ o ≠ .exit ∧ Kept log := by
  refine logs_seq (append_logs fl.viewOrder ss) ?_
  rintro b ok ⟨hb, hk⟩
  cases ok with
  | false =>
    refine logs_pure ?_
    rw [List.append_nil]
    exact ⟨⟨b, [], by simp, hb.kind, by simp⟩, hb.weak (fun _ _ => trivial) nofun, nofun, hk⟩
  | true =>
    refine logs_seq (indexLoop_logs fl.bitsOrder (fl.shardOrder f)) ?_
    intro c ok hc
    refine logs_pure ?_
    rw [List.append_nil]
    refine ⟨⟨b, c, rfl, hb.kind, hc.kind⟩, ?_, by cases ok <;> nofun, hk.append (kept_none ?_)⟩
    · refine Piece.append (hb.weak (fun _ _ => trivial) id) (hc.weak (fun _ _ => trivial) ?_)
      cases ok <;> simp
    · intro x hx v r e
      obtain ⟨k, ws, h⟩ := hc.kind x hx
      rw [e] at h; cases h

theorem flush_logs (resource : Int) (fl : Flush) : (flush resource fl).Logs fun log o => FlushLog o.1 log := by
  refine logs_seq (processAll_logs resource fl.samples) ?_
  intro a p ha
  have hka : Kept a := kept_none fun x hx v r e => by
    obtain ⟨k, h⟩ := ha.kind x hx
    rw [e] at h; cases h
  have hda : ∀ x ∈ a, x.1.base = .dict := fun x hx => by obtain ⟨k, h⟩ := ha.kind x hx; rw [h]; rfl
  cases p with
  | none =>
    refine logs_pure ?_
    rw [List.append_nil]
    exact ⟨⟨a, [], [], by simp, ha.kind, by simp, by simp⟩, ha.stop, fun x hx _ => by rw [hda x hx]; rfl, fun _ => ha.kind, hka⟩
  | some p =>
    have hok := ha.ok rfl
    refine logs_seq (makeFragments_logs p.entries []) ?_
    rintro _ f rfl
    cases f with
    | none =>
      refine logs_pure ?_
      rw [List.append_nil, List.append_nil]
      exact ⟨⟨a, [], [], by simp, ha.kind, by simp, by simp⟩, ha.stop, fun x hx h => (by rw [hok x hx] at h; cases h), nofun, hka⟩
    | some f =>
      refine logs_seq (releaseTimes_logs p.entries) ?_
      rintro _ _ rfl
      refine logs_seq (saveAll_logs fl p.samples f) ?_
      rintro log o ⟨⟨b, c, rfl, hb, hc⟩, h2, h3, h4⟩
      refine logs_pure ?_
      simp only [List.append_nil, List.nil_append]
      refine ⟨⟨a, b, c, by simp, ha.kind, hb, hc⟩, ?_, ?_, fun e => absurd e h3, hka.append h4⟩
      · exact (Piece.append (ha.weak (fun _ _ => trivial) id) h2).stop
      · intro x hx h
        rcases List.mem_append.mp hx with hx | hx
        · rw [hok x hx] at h; cases h
        · have hne : x.1.base ≠ .dict := by
            rcases List.mem_append.mp hx with hx | hx
            · rw [hb x hx]; nofun
            · obtain ⟨k, ws, e⟩ := hc x hx; rw [e]; nofun
          rw [if_neg hne]
          cases o with
          | ok => rw [h2.ok rfl x hx] at h; cases h
          | err => rfl
          | exit => exact absurd rfl h3

/-! ## Scans -/

theorem filterLoop_logs (scope : Int) (lbl r : Nat) (fs : List St.Filter) : (filterLoop scope lbl r fs).Logs fun log ok => Piece Went (fun q => ∃ k, q = .find k) ok log := by
  induction fs with
  | nil => exact logs_pure (.nil _)
  | cons f fs ih =>
    rw [filterLoop]
    cases fields scope f with
    | none => exact ih
    | some g =>
      refine logs_use fun l => logs_ask fun a => ?_
      cases a with
      | id n => exact logs_use fun _ => Prog.logs_mono _ (fun l ok h => .cons ⟨_, rfl⟩ rfl h) ih
      | missing => exact logs_use fun _ => logs_pure (.one ⟨_, rfl⟩ fun _ => rfl)
      | failed => exact logs_pure (.one ⟨_, rfl⟩ nofun)
      | found => exact logs_pure (.one ⟨_, rfl⟩ nofun)
      | bits y => exact logs_pure (.one ⟨_, rfl⟩ nofun)
      | table y => exact logs_pure (.one ⟨_, rfl⟩ nofun)

theorem columnsOf_logs (sc : Scan) (lbl r : Nat) : (columnsOf sc lbl r).Logs fun log ok => Piece Went (fun q => ∃ k, q = .find k) ok log := by
  rw [columnsOf]
  split
  · refine logs_use fun l => logs_ask fun a => ?_
    cases a with
    | id n => exact logs_use fun _ => logs_pure (.one ⟨_, rfl⟩ fun _ => rfl)
    | missing => exact logs_pure (.one ⟨_, rfl⟩ fun _ => rfl)
    | failed => exact logs_pure (.one ⟨_, rfl⟩ nofun)
    | found => exact logs_pure (.one ⟨_, rfl⟩ nofun)
    | bits y => exact logs_pure (.one ⟨_, rfl⟩ nofun)
    | table y => exact logs_pure (.one ⟨_, rfl⟩ nofun)
  · exact filterLoop_logs _ _ _ _

theorem compileFilters_logs (sc : Scan) (r : Nat) : (compileFilters sc r).Logs fun log ok => Piece Went (fun q => ∃ k, q = .find k) ok log := by
  refine logs_take fun lbl => logs_seq (columnsOf_logs sc lbl r) ?_
  intro log ok h
  exact logs_give (logs_pure (by rw [List.append_nil]; exact h))

/-- A question to the index that changes nothing. -/
abbrev OfIndex (q : Ask) : Prop := q.base = .index ∧ q.reads = true

theorem viewLoop_logs (k : Nat) (cols : List Nat) (b : Nat) (vs : List Bytes) : (viewLoop k cols b vs).Logs fun log ok => Piece Went OfIndex ok log := by
  induction vs with
  | nil => exact logs_pure (.nil _)
  | cons v vs ih =>
    refine logs_ask fun a => ?_
    cases a with
    | bits y => exact logs_use fun _ => Prog.logs_mono _ (fun l ok h => .cons ⟨rfl, rfl⟩ rfl h) ih
    | id n => exact logs_pure (.one ⟨rfl, rfl⟩ nofun)
    | missing => exact logs_pure (.one ⟨rfl, rfl⟩ nofun)
    | failed => exact logs_pure (.one ⟨rfl, rfl⟩ nofun)
    | found => exact logs_pure (.one ⟨rfl, rfl⟩ nofun)
    | table y => exact logs_pure (.one ⟨rfl, rfl⟩ nofun)

theorem mergeShard_logs (b : Nat) (r : Option Nat) : (mergeShard b r).Logs fun log _ => log = [] := by
  refine logs_look fun x => ?_
  split
  · exact logs_give (logs_pure rfl)
  · cases r with
    | none => exact logs_take fun c => logs_use fun _ => logs_give (logs_pure rfl)
    | some c => exact logs_look fun y => logs_use fun _ => logs_give (logs_pure rfl)

theorem went_shard {k : Nat} {x : Ans} (h : x ≠ .failed) : Went (.shard k) x = true := by cases x <;> first | rfl | exact absurd rfl h

theorem rowsLoop_logs (views : List Bytes) (m : AMap Nat (List Nat)) (r : Option Nat) : (rowsLoop views m r).Logs fun log o => Piece Went OfIndex o.isSome log := by
  induction m generalizing r with
  | nil => exact logs_pure (.nil _)
  | cons e rest ih =>
    obtain ⟨k, f⟩ := e
    have hmore : ∀ a : Ans, a ≠ .failed → (do
        let b ← take .bitmap
        let ok ← viewLoop k f b views
        if ok then do
          let m ← mergeShard b r
          if m.1 then pure (some m.2) else rowsLoop views rest m.2
        else pure none : P (Option (Option Nat))).Logs fun log o => Piece Went OfIndex o.isSome ((.shard k, a) :: log) := by
      intro a ha
      refine logs_take fun b => logs_seq (viewLoop_logs k f b views) ?_
      intro log ok h
      have h := Piece.cons (q := .shard k) (a := a) ⟨rfl, rfl⟩ (went_shard ha) h
      cases ok with
      | false => exact logs_pure (by rw [List.append_nil]; exact h)
      | true =>
        refine logs_seq (mergeShard_logs b r) ?_
        rintro _ m rfl
        split
        · exact logs_pure (by simp only [List.append_nil]; exact h)
        · refine Prog.logs_mono _ ?_ (ih m.2)
          intro l' o h'
          exact h.append h'
    refine logs_ask fun a => ?_
    cases a with
    | failed => exact logs_pure (.one ⟨rfl, rfl⟩ nofun)
    | missing =>
      cases r with
      | none => exact logs_pure (.one ⟨rfl, rfl⟩ fun _ => rfl)
      | some c => exact logs_use fun _ => logs_pure (.one ⟨rfl, rfl⟩ fun _ => rfl)
    | found => exact hmore _ nofun
    | id n => exact hmore _ nofun
    | bits y => exact hmore _ nofun
    | table y => exact hmore _ nofun

/-- A question to the tables that changes nothing. -/
abbrev ReadsFrame (q : Ask) : Prop := q.base = .frame ∧ q.reads = true

/-- A read that did not end with an error. -/
def readOk : Df.Read → Bool
  | .err => false
  | _ => true

theorem readTable_logs (kind : Int) (v : Bytes) (x : Bm) : (readTable kind v x).Logs fun log r => Piece Went ReadsFrame (readOk r) log := by
  refine logs_take fun g => logs_ask fun a => ?_
  cases a with
  | table rows => exact logs_take fun g' => logs_give (logs_give (logs_pure (.one ⟨rfl, rfl⟩ fun _ => rfl)))
  | bits y => exact logs_give (logs_pure (.one ⟨rfl, rfl⟩ nofun))
  | id n => exact logs_give (logs_pure (.one ⟨rfl, rfl⟩ nofun))
  | missing => exact logs_give (logs_pure (.one ⟨rfl, rfl⟩ nofun))
  | failed => exact logs_give (logs_pure (.one ⟨rfl, rfl⟩ nofun))
  | found => exact logs_give (logs_pure (.one ⟨rfl, rfl⟩ nofun))

theorem readSet_logs (kind : Int) (ids : Nat) (v : Bytes) (b : Nat) : (readSet kind ids v b).Logs fun log r => Piece Went ReadsFrame (readOk r) log := by
  refine logs_ask fun a => ?_
  cases a with
  | bits y =>
    refine logs_use fun _ => logs_look fun w => logs_use fun x => ?_
    split
    · exact logs_pure (.one ⟨rfl, rfl⟩ fun _ => rfl)
    · exact Prog.logs_mono _ (fun l r h => .cons ⟨rfl, rfl⟩ rfl h) (readTable_logs _ _ _)
  | table rows => exact logs_pure (.one ⟨rfl, rfl⟩ nofun)
  | id n => exact logs_pure (.one ⟨rfl, rfl⟩ nofun)
  | missing => exact logs_pure (.one ⟨rfl, rfl⟩ nofun)
  | failed => exact logs_pure (.one ⟨rfl, rfl⟩ nofun)
  | found => exact logs_pure (.one ⟨rfl, rfl⟩ nofun)

theorem readView_logs (kind : Int) (ids : Nat) (v : Bytes) : (readView kind ids v).Logs fun log r => Piece Went ReadsFrame (readOk r) log := by
  have hmore : ∀ a : Ans, a ≠ .failed → (do
      let b ← take .bitmap
      let r ← readSet kind ids v b
      give b
      pure r : P Df.Read).Logs fun log r => Piece Went ReadsFrame (readOk r) ((.view v, a) :: log) := by
    intro a ha
    refine logs_take fun b => logs_seq (readSet_logs kind ids v b) ?_
    intro l r h
    exact logs_give (logs_pure (by rw [List.append_nil]; exact .cons ⟨rfl, rfl⟩ (went_view ha) h))
  refine logs_ask fun a => ?_
  cases a with
  | missing => exact logs_pure (.one ⟨rfl, rfl⟩ fun _ => rfl)
  | failed => exact logs_pure (.one ⟨rfl, rfl⟩ nofun)
  | found => exact hmore _ nofun
  | id n => exact hmore _ nofun
  | bits y => exact hmore _ nofun
  | table y => exact hmore _ nofun

theorem unmarshal_logs (kind : Int) (ids : Nat) (vs : List Bytes) : (unmarshal kind ids vs).Logs fun log r => Piece Went ReadsFrame (readOk r) log := by
  induction vs with
  | nil => exact logs_pure (.nil _)
  | cons v vs ih =>
    refine logs_seq (readView_logs kind ids v) ?_
    intro log r h
    cases r with
    | err => exact logs_pure (by rw [List.append_nil]; exact h)
    | outOfRange => exact logs_pure (by rw [List.append_nil]; exact h)
    | ok l =>
      refine logs_seq ih ?_
      intro log' r' h'
      have h2 := Piece.append h h'
      cases r' with
      | err => exact logs_pure (by rw [List.append_nil]; exact h2)
      | outOfRange => exact logs_pure (by rw [List.append_nil]; exact h2)
      | ok l' => exact logs_pure (by rw [List.append_nil]; exact h2)

theorem collapseG_logs {α : Type} (signal : Int) (H : Dt.Par) (o : Dt.Ops α) (perm : AMap Nat Nat → AMap Nat Nat) (ds : List (Option (List (ResourceG α)))) :
    (collapseG signal H o perm ds).Logs fun log _ => log = [] := by
  refine logs_take fun xm => ?_
  cases ds.mapM id with
  | none => exact logs_give (logs_pure rfl)
  | some l =>
    refine logs_look fun s => ?_
    cases Dt.addAll H o l.flatten s.st with
    | none => exact logs_give (logs_pure rfl)
    | some st => exact logs_use fun _ => logs_use fun _ => logs_give (logs_pure rfl)

theorem collapse_logs (H : Dt.Par) (perm : AMap Nat Nat → AMap Nat Nat) (ts : List Data) : (collapse H perm ts).Logs fun log _ => log = [] := by
  have h : ∀ {α β : Type} {p : P α} {f : α → β}, (p.Logs fun log _ => log = []) → (do let r ← p; pure (f r) : P β).Logs fun log _ => log = [] := by
    intro α β p f hp
    refine logs_seq hp ?_
    rintro _ _ rfl
    exact logs_pure rfl
  rcases ts with _ | ⟨d, _ | ⟨d2, ts⟩⟩
  · exact logs_pure rfl
  · exact logs_pure rfl
  · cases d with
    | none => exact logs_pure rfl
    | metrics x => exact h (collapseG_logs _ _ _ _ _)
    | logs x => exact h (collapseG_logs _ _ _ _ _)
    | traces x => exact h (collapseG_logs _ _ _ _ _)

theorem readSamples_logs (E : Env) (sc : Scan) (ids : Nat) :
    (readSamples E sc ids).Logs fun log r => Piece Went ReadsFrame false log ∧ ∀ x ∈ log, Went x.1 x.2 = false → r = .data none := by
  rw [readSamples]
  split
  · refine logs_seq (unmarshal_logs sc.scope ids (E.views sc)) ?_
    intro log r h
    have hw := h.weak (B' := ReadsFrame) (ok' := false) (fun _ h => h) nofun
    cases r with
    | err => exact logs_pure (by rw [List.append_nil]; exact ⟨hw, fun _ _ _ => rfl⟩)
    | outOfRange => exact logs_pure (by rw [List.append_nil]; exact ⟨hw, fun x hx e => by rw [h.ok rfl x hx] at e; cases e⟩)
    | ok l =>
      refine logs_seq (collapse_logs _ _ _) ?_
      rintro _ d rfl
      have h3 : ∀ r : Result, Piece Went ReadsFrame false (log ++ ([] ++ [])) ∧ ∀ x ∈ log ++ ([] ++ []), Went x.1 x.2 = false → r = .data none := by
        intro r
        rw [List.append_nil, List.append_nil]
        exact ⟨hw, fun x hx e => by rw [h.ok rfl x hx] at e; cases e⟩
      cases d with
      | none => exact logs_pure (h3 _)
      | some d => exact logs_pure (h3 _)
  · exact logs_pure ⟨.nil _, by simp⟩

/-- What a scan asks: keys, then shards, then views. -/
structure ScanLog (r : Result) (log : List (Ask × Ans)) : Prop where
  reads : ∀ x ∈ log, x.1.reads = true
  parts : ∃ a b c, log = a ++ b ++ c ∧ (∀ x ∈ a, x.1.base = .dict) ∧ (∀ x ∈ b, x.1.base = .index) ∧ (∀ x ∈ c, x.1.base = .frame)
  stop : ∀ x ∈ log.dropLast, Went x.1 x.2 = true
  bad : ∀ x ∈ log, Went x.1 x.2 = false → r = if x.1.base = .frame then .data none else .err

theorem choose_logs (sc : Scan) (ids : Nat) : (choose sc ids).Logs fun log _ => log = [] := by
  rw [choose]
  cases sc.time.range with
  | none => exact fun _ => rfl
  | some x => exact fun _ => rfl

theorem scanSamples_logs (E : Env) (sc : Scan) (ids : Nat) :
    (scanSamples E sc ids).Logs fun log r => Piece Went ReadsFrame false log ∧ ∀ x ∈ log, Went x.1 x.2 = false → r = .data none := by
  refine logs_look fun s => ?_
  split
  · exact logs_pure ⟨.nil _, by simp⟩
  · refine logs_seq (choose_logs sc ids) ?_
    rintro _ _ rfl
    exact readSamples_logs E sc ids

theorem ScanLog.mk' {r : Result} {a b c : List (Ask × Ans)} {oa ob : Bool} (ha : Piece Went (fun q => ∃ k, q = .find k) oa a) (hb : Piece Went OfIndex ob b)
    (hc : Piece Went ReadsFrame false c) (h1 : oa = false → b = [] ∧ c = [] ∧ r = .err) (h2 : ob = false → c = [] ∧ r = .err) (h3 : ∀ x ∈ c, Went x.1 x.2 = false → r = .data none) :
    ScanLog r (a ++ b ++ c) := by
  have hra : ∀ x ∈ a, x.1.base = .dict ∧ x.1.reads = true := fun x hx => by obtain ⟨k, e⟩ := ha.kind x hx; rw [e]; exact ⟨rfl, rfl⟩
  refine ⟨?_, ⟨a, b, c, rfl, fun x hx => (hra x hx).1, fun x hx => (hb.kind x hx).1, fun x hx => (hc.kind x hx).1⟩, ?_, ?_⟩
  · intro x hx
    rcases List.mem_append.mp hx with hx | hx
    · rcases List.mem_append.mp hx with hx | hx
      · exact (hra x hx).2
      · exact (hb.kind x hx).2
    · exact (hc.kind x hx).2
  · cases oa with
    | false => obtain ⟨rfl, rfl, -⟩ := h1 rfl; simpa using ha.stop
    | true =>
      have hab := Piece.append (ha.weak (B' := fun _ => True) (fun _ _ => trivial) id) (hb.weak (fun _ _ => trivial) id)
      cases ob with
      | false => obtain ⟨rfl, -⟩ := h2 rfl; rw [List.append_nil]; exact hab.stop
      | true => exact (hab.append (hc.weak (fun _ _ => trivial) id)).stop
  · intro x hx hf
    rcases List.mem_append.mp hx with hx | hx
    · rcases List.mem_append.mp hx with hx | hx
      · rw [(hra x hx).1]
        cases oa with
        | false => exact (h1 rfl).2.2
        | true => rw [ha.ok rfl x hx] at hf; cases hf
      · rw [(hb.kind x hx).1]
        cases ob with
        | false => exact (h2 rfl).2
        | true => rw [hb.ok rfl x hx] at hf; cases hf
    · rw [(hc.kind x hx).1]; exact h3 x hx hf

theorem scanColumns_logs (E : Env) (sc : Scan) (columns : Nat) {a : List (Ask × Ans)} (ha : Piece Went (fun q => ∃ k, q = .find k) true a) :
    (scanColumns E sc columns).Logs fun log r => ScanLog r (a ++ log) := by
  refine logs_look fun c => ?_
  split
  · refine logs_pure ?_
    simpa using ScanLog.mk' (b := []) (c := []) ha (.nil true) (.nil _) nofun nofun (by simp)
  · refine logs_seq (rowsLoop_logs _ _ _) ?_
    intro b r hb
    have hn : ∀ res, (r = none → res = .err) → ScanLog res (a ++ (b ++ [])) := by
      intro res hr
      simpa using ScanLog.mk' (r := res) (c := []) ha hb (.nil _) nofun (fun e => ⟨rfl, hr (by simpa using e)⟩) (by simp)
    rcases r with _ | _ | samples
    · exact logs_pure (hn _ fun _ => rfl)
    · exact logs_pure (hn _ nofun)
    · refine logs_seq (scanSamples_logs E sc samples) ?_
      rintro c r ⟨hc, h3⟩
      refine logs_give (logs_pure ?_)
      simpa using ScanLog.mk' ha hb hc nofun nofun h3

theorem scan_logs (E : Env) (sc : Scan) : (scan E sc).Logs fun log r => ScanLog r log := by
  refine logs_take fun key => logs_take fun columns => ?_
  have hbody : (scanBody E sc columns).Logs fun log r => ScanLog r log := by
    refine logs_seq (compileFilters_logs sc columns) ?_
    intro a ok ha
    cases ok with
    | false =>
      refine logs_pure ?_
      simpa using ScanLog.mk' (r := .err) (b := []) (c := []) ha (.nil true) (.nil _) (fun _ => ⟨rfl, rfl, rfl⟩) nofun (by simp)
    | true => exact scanColumns_logs E sc columns ha
  refine logs_seq hbody ?_
  intro log r h
  exact logs_give (logs_give (logs_pure (by rw [List.append_nil]; exact h)))

/-! ## The dictionary -/

theorem addKey_logs (ids key : Bytes) (g : Nat) : (addKey ids key g).Logs fun log r => Piece TWent (fun _ => True) (decide (r ≠ .err)) log ∧ (r = .err → ∃ x ∈ log, TWent x.1 x.2 = false) := by
  refine logs_ask fun a => ?_
  cases a with
  | id n =>
    refine logs_look fun k => logs_use fun _ => logs_use fun _ => logs_use fun ik => logs_ask fun a => ?_
    cases a with
    | done => exact logs_pure ⟨.cons trivial rfl (.one trivial fun _ => rfl), nofun⟩
    | missing => exact logs_pure ⟨.cons trivial rfl (.one trivial nofun), fun _ => ⟨_, .tail _ (.head _), rfl⟩⟩
    | failed => exact logs_pure ⟨.cons trivial rfl (.one trivial nofun), fun _ => ⟨_, .tail _ (.head _), rfl⟩⟩
    | value v => exact logs_pure ⟨.cons trivial rfl (.one trivial nofun), fun _ => ⟨_, .tail _ (.head _), rfl⟩⟩
    | id v => exact logs_pure ⟨.cons trivial rfl (.one trivial nofun), fun _ => ⟨_, .tail _ (.head _), rfl⟩⟩
  | missing => exact logs_pure ⟨.one trivial nofun, fun _ => ⟨_, .head _, rfl⟩⟩
  | failed => exact logs_pure ⟨.one trivial nofun, fun _ => ⟨_, .head _, rfl⟩⟩
  | value v => exact logs_pure ⟨.one trivial nofun, fun _ => ⟨_, .head _, rfl⟩⟩
  | done => exact logs_pure ⟨.one trivial nofun, fun _ => ⟨_, .head _, rfl⟩⟩

theorem translateKey_logs (keys ids key : Bytes) :
    (translateKey keys ids key).Logs fun log r => Piece TWent (fun _ => True) (decide (r ≠ .err)) log ∧ (r = .err → ∃ x ∈ log, TWent x.1 x.2 = false) := by
  refine logs_take fun g => logs_use fun _ => logs_use fun k => logs_ask fun a => ?_
  refine logs_seq (Ψ := fun log r => Piece TWent (fun _ => True) (decide (r ≠ .err)) ((.get k.bytes, a) :: log) ∧ (r = .err → ∃ x ∈ (.get k.bytes, a) :: log, TWent x.1 x.2 = false)) ?_ ?_
  · cases a with
    | missing =>
      refine Prog.logs_mono _ ?_ (addKey_logs ids key g)
      rintro log r ⟨h1, h2⟩
      exact ⟨.cons trivial rfl h1, fun e => by obtain ⟨x, hx, h⟩ := h2 e; exact ⟨x, .tail _ hx, h⟩⟩
    | value v =>
      rw [translateWith]
      cases btou64 v with
      | none => exact logs_pure ⟨.one trivial fun _ => rfl, nofun⟩
      | some n => exact logs_pure ⟨.one trivial fun _ => rfl, nofun⟩
    | failed => exact logs_pure ⟨.one trivial nofun, fun _ => ⟨_, .head _, rfl⟩⟩
    | id v => exact logs_pure ⟨.one trivial nofun, fun _ => ⟨_, .head _, rfl⟩⟩
    | done => exact logs_pure ⟨.one trivial nofun, fun _ => ⟨_, .head _, rfl⟩⟩
  · intro log r h
    exact logs_give (logs_pure (by simpa using h))

/-- The value that was found. -/
def TAns.value? : TAns → Option Bytes
  | .value v => some v
  | _ => none

theorem bulkLoop_logs (ids : Bytes) (g : Nat) (l : List Nat) : (bulkLoop ids g l).Logs fun log r =>
    ∃ vs, vs = log.filterMap (fun x => x.2.value?) ∧ r.1 = vs ∧ (∀ x ∈ log.dropLast, x.2.value?.isSome) ∧ (r.2 = true ↔ ∀ x ∈ log, x.2.value?.isSome) ∧ (r.2 = true → log.length = l.length) := by
  induction l with
  | nil => exact logs_pure ⟨[], rfl, rfl, by simp, by simp, by simp⟩
  | cons id rest ih =>
    refine logs_use fun _ => logs_use fun _ => logs_use fun k => logs_ask fun a => ?_
    cases a with
    | value v =>
      refine logs_seq ih ?_
      rintro log r ⟨_, rfl, h1, h2, h3, h4⟩
      refine logs_pure ⟨_, rfl, by simp [TAns.value?, h1], ?_, by simp [TAns.value?, h3], by simpa using h4⟩
      intro x hx
      rw [List.append_nil] at hx
      cases log with
      | nil => simp at hx
      | cons y log =>
        rw [List.dropLast_cons_cons] at hx
        rcases List.mem_cons.mp hx with rfl | hx
        · rfl
        · exact h2 x hx
    | missing => exact logs_pure ⟨_, rfl, by simp [TAns.value?], by simp, by simp [TAns.value?], nofun⟩
    | failed => exact logs_pure ⟨_, rfl, by simp [TAns.value?], by simp, by simp [TAns.value?], nofun⟩
    | id v => exact logs_pure ⟨_, rfl, by simp [TAns.value?], by simp, by simp [TAns.value?], nofun⟩
    | done => exact logs_pure ⟨_, rfl, by simp [TAns.value?], by simp, by simp [TAns.value?], nofun⟩

end Verif.Pl
