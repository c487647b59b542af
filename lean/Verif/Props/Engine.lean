import Verif.Model.Engine
import Verif.Lemmas.Bitmap
import Mathlib.Data.List.Induction
/-!
# C80: scripts do not see each other

`C80_own`: whatever all the other users of the engine pool do, and whichever engines the pool hands out, the engine a user has is what it
would be if he had made a new one and done only what he did himself — but for the globals of the runtime, which are a new runtime's or
what the script run before him left (`C80_leak`: they do leak). `C80_writes`: so what a script prints goes to its own writer and no other.
`C80_again`: a script that calls `RQ.Release` breaks this. `C80_programs`, `C80_collision`: the cache of compiled programs.
-/
namespace Verif.En
open List

variable {γ ω ν σ θ : Type} (fresh : γ)

/-! ## What is claimed -/

/-- The engine a user has now. -/
def State.engine (s : State γ ω ν σ θ) (u : Nat) : Option (Engine γ ω ν σ θ) := (s.held.get u).bind (s.engines[·]?)

/-- What a user does to his engine, alone: `none` for the steps of others. -/
def own (u : Nat) (e : Engine γ ω ν σ θ) : Op γ ω ν σ θ → Engine γ ω ν σ θ
  | .now v n => if v = u then { e with now := some n } else e
  | .scan v f => if v = u then { e with scan := some f } else e
  | .output v w => if v = u then { e with output := some w } else e
  | .run v p => if v = u then ⟨(p.run e.runtime e.now e.scan e.request).1, e.output, e.now, e.scan, (p.run e.runtime e.now e.scan e.request).2.2⟩ else e
  | .reset v => if v = u then { runtime := e.runtime } else e
  | _ => e

/-- Nobody goes on with an engine he has released. -/
def Good : Op γ ω ν σ θ → Prop
  | .again _ => False
  | _ => True

/-- A step that ends the use of an engine by `u`, or begins another. -/
def Ends (u : Nat) : Op γ ω ν σ θ → Prop
  | .get v _ => v = u
  | .release v => v = u
  | _ => False

/-! ## The invariant -/

structure Inv (s : State γ ω ν σ θ) : Prop where
  ok : s.held.Ok
  inj : ∀ u v k, s.held.get u = some k → s.held.get v = some k → u = v
  lt : ∀ u k, s.held.get u = some k → k < s.engines.length
  nodup : s.pool.Nodup
  plt : ∀ k ∈ s.pool, k < s.engines.length
  free : ∀ u k, s.held.get u = some k → k ∉ s.pool
  clean : ∀ k ∈ s.pool, ∀ e, s.engines[k]? = some e → e = e.reset

theorem get_filter_ne (m : AMap Nat Nat) (u v : Nat) :
    AMap.get (m.filter fun e => decide (e.1 ≠ u)) v = if v = u then none else AMap.get m v := by
  induction m with
  | nil => simp [AMap.get]
  | cons a m ih =>
    obtain ⟨k, x⟩ := a
    by_cases h : k = u
    · subst h
      rw [List.filter_cons_of_neg (by simp), ih]
      by_cases hv : v = k
      · simp [hv]
      · simp only [AMap.get, if_neg hv, if_neg (fun e : k = v => hv e.symm)]
    · rw [List.filter_cons_of_pos (by simpa using h)]
      simp only [AMap.get, ih]
      by_cases hv : k = v
      · simp [hv, show ¬ v = u from fun e => h (hv.trans e)]
      · simp [hv]

theorem filter_ok {m : AMap Nat Nat} (h : m.Ok) (u : Nat) : AMap.Ok (m.filter fun e => decide (e.1 ≠ u)) := by
  unfold AMap.Ok at *
  exact (List.filter_sublist.map _).nodup h

theorem inv_change {s : State γ ω ν σ θ} (h : Inv s) (u : Nat) (f : Engine γ ω ν σ θ → Engine γ ω ν σ θ) : Inv (change s u f) := by
  unfold change
  cases hu : s.held.get u with
  | none => exact h
  | some k =>
    refine ⟨h.ok, h.inj, ?_, h.nodup, ?_, h.free, ?_⟩
    · intro v j hj; simpa using h.lt v j hj
    · intro j hj; simpa using h.plt j hj
    · intro j hj e he
      have hne : k ≠ j := fun e => h.free u k hu (e ▸ hj)
      dsimp only at he hj
      rw [List.getElem?_modify] at he
      simp only [hne, if_false] at he
      exact h.clean j hj e (by simpa using he)

theorem inv_get {s : State γ ω ν σ θ} (h : Inv s) (u : Nat) (pick : Option Nat) : Inv (get fresh s u pick) := by
  unfold get
  cases hp : pick.bind (s.pool[·]?) with
  | none =>
    refine ⟨AMap.set_ok h.ok _ _, ?_, ?_, h.nodup, ?_, ?_, ?_⟩
    · intro v w k hv hw
      rw [AMap.get_set] at hv hw
      by_cases ev : u = v <;> by_cases ew : u = w <;> simp only [ev, ew, if_true, if_false] at hv hw
      · exact ev.symm.trans ew
      · cases hv; exact absurd (h.lt _ _ (by simpa [ev, show ¬ v = w from fun e => ew (ev.trans e)] using hw)) (Nat.lt_irrefl _)
      · cases hw; exact absurd (h.lt _ _ (by simpa [ew, show ¬ w = v from fun e => ev (ew.trans e)] using hv)) (Nat.lt_irrefl _)
      · exact h.inj v w k hv hw
    · intro v k hv
      rw [AMap.get_set] at hv
      simp only [List.length_append, List.length_singleton]
      by_cases ev : u = v
      · simp only [ev, if_true] at hv; cases hv; omega
      · simp only [ev, if_false] at hv; have := h.lt _ _ hv; omega
    · intro k hk; have := h.plt k hk; simp; omega
    · intro v k hv hk
      rw [AMap.get_set] at hv
      by_cases ev : u = v
      · simp only [ev, if_true] at hv; cases hv; exact Nat.lt_irrefl _ (h.plt _ hk)
      · simp only [ev, if_false] at hv; exact h.free _ _ hv hk
    · intro k hk e he
      dsimp only at he
      rw [List.getElem?_append_left (h.plt k hk)] at he
      exact h.clean k hk e he
  | some k =>
    have hk : k ∈ s.pool := by
      cases pick with
      | none => simp at hp
      | some i => simp at hp; exact List.mem_of_getElem? hp
    refine ⟨AMap.set_ok h.ok _ _, ?_, ?_, h.nodup.erase _, ?_, ?_, ?_⟩
    · intro v w j hv hw
      rw [AMap.get_set] at hv hw
      by_cases ev : u = v <;> by_cases ew : u = w
      · exact ev.symm.trans ew
      · rw [if_pos ev] at hv; rw [if_neg ew] at hw; cases hv; exact absurd hk (h.free _ _ hw)
      · rw [if_neg ev] at hv; rw [if_pos ew] at hw; cases hw; exact absurd hk (h.free _ _ hv)
      · rw [if_neg ev] at hv; rw [if_neg ew] at hw; exact h.inj v w j hv hw
    · intro v j hv
      rw [AMap.get_set] at hv
      by_cases ev : u = v
      · rw [if_pos ev] at hv; cases hv; exact h.plt _ hk
      · rw [if_neg ev] at hv; exact h.lt _ _ hv
    · intro j hj; exact h.plt j (List.mem_of_mem_erase hj)
    · intro v j hv hj
      rw [AMap.get_set] at hv
      by_cases ev : u = v
      · rw [if_pos ev] at hv; cases hv; exact (h.nodup.not_mem_erase) hj
      · rw [if_neg ev] at hv; exact h.free _ _ hv (List.mem_of_mem_erase hj)
    · intro j hj e he; exact h.clean j (List.mem_of_mem_erase hj) e he

theorem inv_release {s : State γ ω ν σ θ} (h : Inv s) (u : Nat) : Inv (release s u) := by
  unfold release
  cases hu : s.held.get u with
  | none => exact h
  | some k =>
    refine ⟨filter_ok h.ok u, ?_, ?_, ?_, ?_, ?_, ?_⟩
    · intro v w j hv hw
      rw [get_filter_ne] at hv hw
      by_cases ev : v = u <;> by_cases ew : w = u <;> simp only [ev, ew, if_true, if_false] at hv hw <;> try (first | cases hv | cases hw)
      exact h.inj v w j hv hw
    · intro v j hv
      rw [get_filter_ne] at hv
      by_cases ev : v = u <;> simp only [ev, if_true, if_false] at hv
      · cases hv
      · simpa using h.lt _ _ hv
    · exact List.nodup_append.2 ⟨h.nodup, by simp, by
        intro a ha b hb; simp at hb; subst hb; intro e; subst e; exact h.free u a hu ha⟩
    · intro j hj
      rcases List.mem_append.1 hj with hj | hj
      · simpa using h.plt j hj
      · simp at hj; subst hj; simpa using h.lt u j hu
    · intro v j hv hj
      rw [get_filter_ne] at hv
      by_cases ev : v = u <;> simp only [ev, if_true, if_false] at hv
      · cases hv
      · rcases List.mem_append.1 hj with hj | hj
        · exact h.free _ _ hv hj
        · simp at hj; subst hj; exact ev (h.inj v u j hv hu)
    · intro j hj e he
      dsimp only at he hj
      rw [List.getElem?_modify] at he
      by_cases hjk : k = j
      · simp only [hjk, if_true] at he
        cases hg : s.engines[j]? with
        | none => rw [hg] at he; cases he
        | some e0 => rw [hg] at he; simp at he; subst he; rfl
      · simp only [hjk, if_false] at he
        rcases List.mem_append.1 hj with hj | hj
        · exact h.clean j hj e (by simpa using he)
        · simp at hj; exact absurd hj.symm hjk

theorem inv_gc {s : State γ ω ν σ θ} (h : Inv s) (pos : Nat) : Inv { s with pool := s.pool.eraseIdx pos } := by
  have hs := List.eraseIdx_sublist s.pool pos
  exact ⟨h.ok, h.inj, h.lt, hs.nodup h.nodup, fun k hk => h.plt k (hs.subset hk), fun u k hu hk => h.free u k hu (hs.subset hk),
    fun k hk => h.clean k (hs.subset hk)⟩

theorem inv_step {s : State γ ω ν σ θ} (h : Inv s) (op : Op γ ω ν σ θ) (hg : Good op) : Inv (step fresh s op).1 := by
  cases op with
  | get u pick => exact inv_get fresh h u pick
  | now u n => exact inv_change h u _
  | scan u n => exact inv_change h u _
  | output u n => exact inv_change h u _
  | run u n => exact inv_change h u _
  | reset u => exact inv_change h u _
  | release u => exact inv_release h u
  | again u => exact hg.elim
  | gc pos => exact inv_gc h pos

theorem inv_init : Inv ({} : State γ ω ν σ θ) :=
  ⟨List.nodup_nil, nofun, nofun, List.nodup_nil, nofun, nofun, nofun⟩

theorem inv_foldl {s : State γ ω ν σ θ} (h : Inv s) (ops : List (Op γ ω ν σ θ)) (hg : ∀ op ∈ ops, Good op) :
    Inv (ops.foldl (fun s op => (step fresh s op).1) s) := by
  induction ops generalizing s with
  | nil => exact h
  | cons op ops ih =>
    exact ih (inv_step fresh h op (hg op (by simp))) (fun o ho => hg o (by simp [ho]))

theorem inv_run (ops : List (Op γ ω ν σ θ)) (hg : ∀ op ∈ ops, Good op) : Inv (run fresh ops) := inv_foldl fresh inv_init ops hg

/-! ## One step, seen by one user -/

theorem engine_change {s : State γ ω ν σ θ} (h : Inv s) (u v : Nat) (f : Engine γ ω ν σ θ → Engine γ ω ν σ θ) :
    (change s v f).engine u = if v = u then (s.engine u).map f else s.engine u := by
  unfold change State.engine
  cases hv : s.held.get v with
  | none =>
    by_cases e : v = u
    · subst e; simp [hv]
    · simp [e]
  | some k =>
    dsimp only
    cases hu : s.held.get u with
    | none => by_cases e : v = u <;> simp [e]
    | some j =>
      simp only [Option.bind_some, List.getElem?_modify]
      by_cases e : v = u
      · subst e; rw [hv] at hu; cases hu
        simp
      · have : k ≠ j := fun ek => e (h.inj v u k hv (ek ▸ hu))
        simp [e, this]

theorem engine_step {s : State γ ω ν σ θ} (h : Inv s) (u : Nat) (op : Op γ ω ν σ θ) (hg : Good op) (he : ¬ Ends u op) :
    (step fresh s op).1.engine u = (s.engine u).map (own u · op) := by
  have hid : ∀ o : Option (Engine γ ω ν σ θ), o.map (fun e => e) = o := fun o => by cases o <;> rfl
  cases op with
  | get v pick =>
    have hv : ¬ v = u := he
    simp only [step, own, hid]
    unfold get
    cases hp : pick.bind (s.pool[·]?) with
    | none =>
      simp only [State.engine, AMap.get_set, if_neg hv]
      cases hu : s.held.get u with
      | none => rfl
      | some k => simp only [Option.bind_some]; rw [List.getElem?_append_left (h.lt u k hu)]
    | some k => simp only [State.engine, AMap.get_set, if_neg hv]
  | release v =>
    have hv : ¬ v = u := he
    simp only [step, own, hid]
    unfold release
    cases hk : s.held.get v with
    | none => rfl
    | some k =>
      simp only [State.engine, get_filter_ne, if_neg (fun e : u = v => hv e.symm)]
      cases hu : s.held.get u with
      | none => rfl
      | some j =>
        have : k ≠ j := fun ek => hv (h.inj v u k hk (ek ▸ hu))
        simp [List.getElem?_modify, this]
  | now v n => simp only [step, own, engine_change h]; split <;> simp [hid]
  | scan v n => simp only [step, own, engine_change h]; split <;> simp [hid]
  | output v n => simp only [step, own, engine_change h]; split <;> simp [hid]
  | run v n => simp only [step, own, engine_change h]; split <;> first | rfl | simp [hid]
  | reset v => simp only [step, own, engine_change h]; split <;> first | rfl | simp [hid]
  | again v => exact hg.elim
  | gc pos => simp only [step, own, hid]; rfl

theorem engine_foldl {s : State γ ω ν σ θ} (h : Inv s) (u : Nat) (ops : List (Op γ ω ν σ θ)) (hg : ∀ op ∈ ops, Good op)
    (he : ∀ op ∈ ops, ¬ Ends u op) :
    (ops.foldl (fun s op => (step fresh s op).1) s).engine u = (s.engine u).map fun e => ops.foldl (own u) e := by
  induction ops generalizing s with
  | nil => cases h : s.engine u <;> simp [h]
  | cons op ops ih =>
    rw [List.foldl_cons, ih (inv_step fresh h op (hg op (by simp))) (fun o ho => hg o (by simp [ho])) (fun o ho => he o (by simp [ho])),
      engine_step fresh h u op (hg op (by simp)) (he op (by simp))]
    cases s.engine u <;> rfl

/-! ## Where the runtime comes from -/

/-- A user gave an engine back whose globals were `r` then. -/
def Left (before : List (Op γ ω ν σ θ)) (r : γ) : Prop :=
  ∃ pre v post e, before = pre ++ .release v :: post ∧ (run fresh pre).engine v = some e ∧ e.runtime = r

theorem run_append (a b : List (Op γ ω ν σ θ)) : run fresh (a ++ b) = b.foldl (fun s op => (step fresh s op).1) (run fresh a) := by
  simp [run, List.foldl_append]

theorem Left.more {fresh : γ} {before : List (Op γ ω ν σ θ)} {r : γ} (h : Left fresh before r) (op : Op γ ω ν σ θ) : Left fresh (before ++ [op]) r := by
  obtain ⟨pre, v, post, e, hb, he, hr⟩ := h
  exact ⟨pre, v, post ++ [op], e, by simp [hb], he, hr⟩

theorem change_pool (s : State γ ω ν σ θ) (u : Nat) (f : Engine γ ω ν σ θ → Engine γ ω ν σ θ) : (change s u f).pool = s.pool := by
  unfold change; cases s.held.get u <;> rfl

theorem change_pooled {s : State γ ω ν σ θ} (h : Inv s) (u : Nat) (f : Engine γ ω ν σ θ → Engine γ ω ν σ θ) {k : Nat} (hk : k ∈ s.pool) :
    (change s u f).engines[k]? = s.engines[k]? := by
  unfold change
  cases hu : s.held.get u with
  | none => rfl
  | some j =>
    have hne : j ≠ k := fun e => h.free u j hu (e ▸ hk)
    simp [hne]

theorem pooled_left (ops : List (Op γ ω ν σ θ)) (hg : ∀ op ∈ ops, Good op) :
    ∀ k ∈ (run fresh ops).pool, ∀ e, (run fresh ops).engines[k]? = some e → Left fresh ops e.runtime := by
  induction ops using List.reverseRecOn with
  | nil => intro k hk; simp [run] at hk
  | append_singleton ops op ih =>
    have hgo : ∀ o ∈ ops, Good o := fun o ho => hg o (by simp [ho])
    have hop : Good op := hg op (by simp)
    have hi := inv_run fresh ops hgo
    have ih := ih hgo
    intro k hk e he
    rw [run_append] at hk he
    simp only [List.foldl_cons, List.foldl_nil] at hk he
    have hch : ∀ u f, k ∈ (change (run fresh ops) u f).pool → (change (run fresh ops) u f).engines[k]? = some e →
        Left fresh (ops ++ [op]) e.runtime := by
      intro u f hk he
      rw [change_pool] at hk
      rw [change_pooled hi u f hk] at he
      exact (ih k hk e he).more op
    cases op with
    | now u n => exact hch u _ hk he
    | scan u n => exact hch u _ hk he
    | output u n => exact hch u _ hk he
    | run u n => exact hch u _ hk he
    | reset u => exact hch u _ hk he
    | again u => exact hop.elim
    | gc pos => exact (ih k ((List.eraseIdx_sublist _ pos).subset hk) e he).more _
    | get u pick =>
      simp only [step, get] at hk he
      cases hp : pick.bind ((run fresh ops).pool[·]?) with
      | none =>
        rw [hp] at hk he
        dsimp only at hk he
        rw [List.getElem?_append_left (hi.plt k hk)] at he
        exact (ih k hk e he).more _
      | some j =>
        rw [hp] at hk he
        exact (ih k (List.mem_of_mem_erase hk) e he).more _
    | release u =>
      simp only [step, release] at hk he
      cases hu : (run fresh ops).held.get u with
      | none => rw [hu] at hk he; exact (ih k hk e he).more _
      | some j =>
        rw [hu] at hk he
        dsimp only at hk he
        rw [List.getElem?_modify] at he
        by_cases hjk : j = k
        · subst hjk
          simp only [if_true] at he
          cases hq : (run fresh ops).engines[j]? with
          | none => rw [hq] at he; cases he
          | some e0 =>
            rw [hq] at he
            simp at he
            subst he
            exact ⟨ops, u, [], e0, rfl, by simp [State.engine, hu, hq], rfl⟩
        · simp only [hjk, if_false] at he
          rcases List.mem_append.1 hk with hk | hk
          · exact (ih k hk e (by simpa using he)).more _
          · simp at hk; exact absurd hk.symm hjk

/-- **C80**: after `New`, a user has an engine that is exactly what he made of it himself: whatever all the users did before and have done
since (`mid`: until he gives it back), it is a new engine to which his own steps were applied; only the globals of the runtime are those
of a new runtime or the ones another user left when he gave the engine back. -/
theorem C80_own (before mid : List (Op γ ω ν σ θ)) (u : Nat) (pick : Option Nat) (hg : ∀ op ∈ before ++ mid, Good op)
    (he : ∀ op ∈ mid, ¬ Ends u op) :
    ∃ r, (r = fresh ∨ Left fresh before r) ∧
      (run fresh (before ++ .get u pick :: mid)).engine u = some (mid.foldl (own u) { runtime := r }) := by
  have hb : ∀ op ∈ before, Good op := fun o ho => hg o (by simp [ho])
  have hi := inv_run fresh before hb
  have hi' := inv_get fresh hi u pick
  rw [run_append, List.foldl_cons]
  have hmid := engine_foldl fresh hi' u mid (fun o ho => hg o (by simp [ho])) he
  show ∃ r, _ ∧ State.engine (List.foldl _ (get fresh (run fresh before) u pick) mid) u = _
  rw [hmid]
  unfold get
  cases hp : pick.bind ((run fresh before).pool[·]?) with
  | none => exact ⟨fresh, Or.inl rfl, by simp [State.engine, AMap.get_set, newJS]⟩
  | some k =>
    have hk : k ∈ (run fresh before).pool := by
      cases pick with
      | none => simp at hp
      | some i => simp at hp; exact List.mem_of_getElem? hp
    cases hq : (run fresh before).engines[k]? with
    | none => exact absurd (hi.plt k hk) (by simpa using List.getElem?_eq_none_iff.1 hq)
    | some e =>
      refine ⟨e.runtime, Or.inr (pooled_left fresh before hb k hk e hq), ?_⟩
      simp only [State.engine, AMap.get_set, if_true, Option.bind_some, hq, Option.map_some]
      rw [hi.clean k hk e hq]
      rfl

/-- **C80**: a clock, a scan function or a writer that the engine of a user has, he set himself since he has it. -/
theorem C80_mine (u : Nat) (r : γ) (mid : List (Op γ ω ν σ θ)) :
    (∀ w, (mid.foldl (own u) { runtime := r }).output = some w → .output u w ∈ mid) ∧
    (∀ n, (mid.foldl (own u) { runtime := r }).now = some n → .now u n ∈ mid) ∧
    (∀ f, (mid.foldl (own u) { runtime := r }).scan = some f → .scan u f ∈ mid) := by
  induction mid using List.reverseRecOn with
  | nil => exact ⟨nofun, nofun, nofun⟩
  | append_singleton mid op ih =>
    obtain ⟨h1, h2, h3⟩ := ih
    rw [List.foldl_append, List.foldl_cons, List.foldl_nil]
    generalize mid.foldl (own u) { runtime := r } = e at h1 h2 h3
    refine ⟨fun w hw => ?_, fun n hn => ?_, fun f hf => ?_⟩
    all_goals cases op <;> simp only [own] at * <;> grind

/-- **C80**: what the script of a user prints goes to the writer he set himself, and nowhere else; no other step writes anything. -/
theorem C80_writes (before mid : List (Op γ ω ν σ θ)) (u : Nat) (pick : Option Nat) (p : Program γ ν σ θ)
    (hg : ∀ op ∈ before ++ mid, Good op) (he : ∀ op ∈ mid, ¬ Ends u op) :
    ∃ r e, (r = fresh ∨ Left fresh before r) ∧ e = mid.foldl (own u) { runtime := r } ∧
      (∀ x, x ∈ (step fresh (run fresh (before ++ .get u pick :: mid)) (.run u p)).2 ↔
        e.output = some x.to ∧ x.texts = (p.run e.runtime e.now e.scan e.request).2.1) ∧
      (∀ x, x ∈ (step fresh (run fresh (before ++ .get u pick :: mid)) (.run u p)).2 → .output u x.to ∈ mid) := by
  obtain ⟨r, hr, h⟩ := C80_own fresh before mid u pick hg he
  have key : ∀ x, x ∈ (step fresh (run fresh (before ++ .get u pick :: mid)) (.run u p)).2 ↔
        (mid.foldl (own u) { runtime := r }).output = some x.to ∧ x.texts = (p.run (mid.foldl (own u) { runtime := r }).runtime
          (mid.foldl (own u) { runtime := r }).now (mid.foldl (own u) { runtime := r }).scan (mid.foldl (own u) { runtime := r }).request).2.1 := by
    intro x
    unfold State.engine at h
    simp only [step, h]
    generalize mid.foldl (own u) { runtime := r } = e
    unfold writes
    cases e.output with
    | none => simp
    | some w =>
      obtain ⟨xt, xs⟩ := x
      simp [ran, eq_comm]
  exact ⟨r, _, hr, rfl, key, fun x hx => (C80_mine u r mid).1 _ ((key x).1 hx).1⟩

theorem C80_silent (s : State γ ω ν σ θ) (op : Op γ ω ν σ θ) (h : ∀ u p, op ≠ .run u p) : (step fresh s op).2 = [] := by
  cases op <;> first | rfl | exact absurd rfl (h _ _)

/-- **C80**: `rq query` makes one engine in its life: its script begins with a new runtime. -/
theorem C80_first (mid : List (Op γ ω ν σ θ)) (u : Nat) (pick : Option Nat) (hg : ∀ op ∈ mid, Good op) (he : ∀ op ∈ mid, ¬ Ends u op) :
    (run fresh (.get u pick :: mid)).engine u = some (mid.foldl (own u) { runtime := fresh }) := by
  obtain ⟨r, hr, h⟩ := C80_own fresh [] mid u pick (by simpa using hg) he
  rcases hr with hr | ⟨pre, v, post, e, hb, _⟩
  · subst hr; exact h
  · exact absurd hb (by simp)

/-! ## What leaks -/

/-- A script that adds one to its global and prints it. -/
def counter : Program Nat Unit Unit Unit := ⟨fun g _ _ _ => (g + 1, [[UInt8.ofNat (g + 1)]], none)⟩

/-- **C80**: globals leak: the second user's script runs with what the first one's left, if the pool hands out the same engine. -/
theorem C80_leak :
    (step 0 (run 0 [.get 1 none, .output 1 'a', .run 1 counter, .release 1, .get 2 (some 0), .output 2 'b']) (.run 2 counter)).2.map
      (fun x => (x.to, x.texts)) = [('b', [[2]])] ∧
    (step 0 (run 0 [.get 1 none, .output 1 'a', .run 1 counter, .release 1, .get 2 none, .output 2 'b']) (.run 2 counter)).2.map
      (fun x => (x.to, x.texts)) = [('b', [[1]])] := by
  constructor <;> rfl

/-- **C80**: a script that calls `RQ.Release()` goes on with an engine that others have: what it prints reaches their writer. -/
theorem C80_again :
    (step 0 (run 0 [.get 1 none, .output 1 'a', .again 1, .get 2 (some 0), .output 2 'b']) (.run 1 counter)).2.map
      (fun x => (x.to, x.texts)) = [('b', [[1]])] := rfl

/-- The hypotheses are met: two users at once, one after another on the same engine. -/
example : ∃ before mid : List (Op Nat Char Unit Unit Unit), (∀ op ∈ before ++ mid, Good op) ∧ (∀ op ∈ mid, ¬ Ends 2 op) ∧ Left 0 before 1 ∧
    (run 0 (before ++ .get 2 (some 0) :: mid)).engine 2 = some (mid.foldl (own 2) { runtime := 1 }) ∧ mid.length = 4 := by
  refine ⟨[.get 1 none, .output 1 'a', .run 1 counter, .release 1], [.get 3 none, .output 3 'c', .output 2 'b', .run 3 counter], ?_, ?_, ?_, rfl, rfl⟩
  · simp [Good]
  · simp [Ends]
  · exact ⟨[.get 1 none, .output 1 'a', .run 1 counter], 1, [], _, rfl, rfl, rfl⟩

/-! ## Compiled programs -/

section
variable {π ε : Type} (hash : Bytes → Nat) (compile : Bytes → Except ε π)

/-- What the cache may have: programs of texts asked for. -/
def CacheOk (cache : Nat → Option π) (asked : List Bytes) : Prop :=
  ∀ h o, cache h = some o → ∃ d ∈ asked, hash d = h ∧ compile d = .ok o

theorem getProgram_ok {cache : Nat → Option π} {asked : List Bytes} (hc : CacheOk hash compile cache asked) (data : Bytes) :
    CacheOk hash compile (getProgram hash compile cache data).2 (asked ++ [data]) ∧
    ((getProgram hash compile cache data).1 = compile data ∨
      ∃ d ∈ asked, hash d = hash data ∧ ∃ o, compile d = .ok o ∧ (getProgram hash compile cache data).1 = .ok o) := by
  have hc' : CacheOk hash compile cache (asked ++ [data]) := fun h o ho => by
    obtain ⟨d, hd, hh⟩ := hc h o ho; exact ⟨d, by simp [hd], hh⟩
  unfold getProgram
  cases h1 : cache (hash data) with
  | some o =>
    obtain ⟨d, hd, hh, ho⟩ := hc _ o h1
    exact ⟨hc', Or.inr ⟨d, hd, hh, o, ho, rfl⟩⟩
  | none =>
    cases h2 : compile data with
    | error e => exact ⟨hc', Or.inl rfl⟩
    | ok o =>
      refine ⟨fun h o' ho => ?_, Or.inl rfl⟩
      dsimp only at ho
      by_cases hh : h = hash data
      · rw [if_pos hh] at ho; cases ho; exact ⟨data, by simp, hh.symm, h2⟩
      · rw [if_neg hh] at ho; exact hc' h o' ho

theorem programs_spec (cache : Nat → Option π) (asked : List Bytes) (hc : CacheOk hash compile cache asked) (calls : List ((Nat → Bool) × Bytes)) :
    (programs hash compile cache calls).length = calls.length ∧
    ∀ (i : Nat) keep data ans, calls[i]? = some (keep, data) → (programs hash compile cache calls)[i]? = some ans →
      ans = compile data ∨ ∃ d, (d ∈ asked ∨ ∃ j < i, ∃ k, calls[j]? = some (k, d)) ∧ hash d = hash data ∧ ∃ o, compile d = .ok o ∧ ans = .ok o := by
  induction calls generalizing cache asked with
  | nil => exact ⟨rfl, nofun⟩
  | cons c calls ih =>
    obtain ⟨keep0, data0⟩ := c
    have hk : CacheOk hash compile (fun h => if keep0 h then cache h else none) asked := by
      intro h o ho
      by_cases hh : keep0 h = true
      · simp only [hh, if_true] at ho; exact hc h o ho
      · simp [hh] at ho
    have hg := getProgram_ok hash compile hk data0
    have hi := ih _ _ hg.1
    refine ⟨by simp [programs, hi.1], ?_⟩
    intro i keep data ans hcall hans
    cases i with
    | zero =>
      simp only [List.getElem?_cons_zero, Option.some.injEq, Prod.mk.injEq, programs] at hcall hans
      obtain ⟨rfl, rfl⟩ := hcall
      subst hans
      rcases hg.2 with h | ⟨d, hd, h⟩
      · exact Or.inl h
      · exact Or.inr ⟨d, Or.inl hd, h⟩
    | succ i =>
      simp only [List.getElem?_cons_succ, programs] at hcall hans
      rcases hi.2 i keep data ans hcall hans with h | ⟨d, hd, h⟩
      · exact Or.inl h
      · refine Or.inr ⟨d, ?_, h⟩
        rcases hd with hd | ⟨j, hj, k, hjk⟩
        · rcases List.mem_append.1 hd with hd | hd
          · exact Or.inl hd
          · simp at hd; subst hd
            exact Or.inr ⟨0, by omega, keep0, rfl⟩
        · exact Or.inr ⟨j + 1, by omega, k, by simpa using hjk⟩

/-- **C80**: in every history of calls, whatever the cache has dropped in between, a call answers with the program (or the error) of its own
text, or with the program of a text asked for before that has the same hash. -/
theorem C80_programs (calls : List ((Nat → Bool) × Bytes)) (i : Nat) (keep : Nat → Bool) (data : Bytes)
    (hcall : calls[i]? = some (keep, data)) :
    ∃ ans, (programs hash compile (fun _ => none) calls)[i]? = some ans ∧
      (ans = compile data ∨ ∃ j < i, ∃ k d, calls[j]? = some (k, d) ∧ hash d = hash data ∧ ∃ o, compile d = .ok o ∧ ans = .ok o) ∧
      ((∀ j < i, ∀ k d, calls[j]? = some (k, d) → hash d = hash data → d = data) → ans = compile data) := by
  have hs := programs_spec hash compile (fun _ => none) [] nofun calls
  have hlt : i < (programs hash compile (fun _ => none) calls).length := by
    rw [hs.1]; exact (List.getElem?_eq_some_iff.1 hcall).1
  refine ⟨_, List.getElem?_eq_getElem hlt, ?_, ?_⟩
  · rcases hs.2 i keep data _ hcall (List.getElem?_eq_getElem hlt) with h | ⟨d, hd, hh, ho⟩
    · exact Or.inl h
    · rcases hd with hd | ⟨j, hj, k, hjk⟩
      · cases hd
      · exact Or.inr ⟨j, hj, k, d, hjk, hh, ho⟩
  · intro hn
    rcases hs.2 i keep data _ hcall (List.getElem?_eq_getElem hlt) with h | ⟨d, hd, hh, o, ho, ha⟩
    · exact h
    · rcases hd with hd | ⟨j, hj, k, hjk⟩
      · cases hd
      · rw [ha, ← ho, hn j hj k d hjk hh]

end

/-- **C80**: two texts with one hash: the second gets the program of the first. An error is not kept; a text that does not compile can get the
program of another. -/
theorem C80_collision :
    programs (fun _ => 7) (fun d => if d = [0] then .error "e" else .ok d) (fun _ => none) [(fun _ => true, [1]), (fun _ => true, [2])] =
      [.ok [1], .ok [1]] ∧
    programs (fun d => d.length) (fun d => if d = [0] then .error "e" else .ok d) (fun _ => none)
      [(fun _ => true, [0]), (fun _ => true, [1]), (fun _ => true, [0])] = [.error "e", .ok [1], .ok [1]] := by
  constructor <;> rfl

end Verif.En
