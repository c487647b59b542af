import Mathlib.Data.List.Induction
import Verif.Lemmas.Ids
import Verif.Props.Translate
/-!
# C06, C07, exactly

What the dictionary answers over all histories, for every capacity of the slice given to `New`.
-/
namespace Verif
open Tr (Op Out World Config Bounded KV.set_same KV.set_ne)
open Ids (Book Fits Split)

theorem Ids.rel_init (c : Config) : ∃ w, Tr.init c KV.empty = some w ∧ Ids.Rel c w (({} : Book).opened c.lease) c.lease := by
  have hf : Tr.Fresh c.pfx KV.empty := fun _ => rfl
  have hN := Tr.names_ok c.pfx c.spare
  refine ⟨_, Tr.init_eq c hf, ?_⟩
  have hst := (Tr.init_stab c hf (Tr.init_eq c hf)).1
  refine { hst with
    atOpen := ?_, counter := ?_, open_le := ?_, counter_le := ?_, bnext := rfl, bleased := ?_, idOf := ?_, idOf_lt := ?_, keyOf := ?_, keyOf_lt := ?_, bpending := rfl }
  · dsimp only; rw [KV.set_same]; simp [Book.opened]
  · dsimp only
    by_cases hs : Split c.spare
    · rw [KV.set_ne _ _ (fun e => (Ids.names_split _ _).1 e.symm hs)]
      unfold Book.counter; rw [if_pos hs]; rfl
    · rw [← (Ids.names_split _ _).2 hs, KV.set_same]
      unfold Book.counter; rw [if_neg hs]; simp [Book.opened]
  · intro n hn; simp [Book.opened] at hn; omega
  · intro n hn
    unfold Book.counter at hn
    by_cases hs : Split c.spare
    · rw [if_pos hs] at hn; cases hn
    · rw [if_neg hs] at hn; simp [Book.opened] at hn; omega
  · simp [Book.opened]
  · intro k; dsimp only; rw [KV.set_ne _ _ (hN.k_ne_0 k)]; rfl
  · intro k n hn; cases hn
  · intro n hn
    dsimp only; rw [KV.set_ne _ _ (hN.i_ne_0 n)]
    simp [Book.lookup, Book.opened, KV.empty]
  · intro n k hn; cases hn

/-- **C06, C07**, exactly: every answer of the dictionary, in every history of operations, failed commits, crashes and reopens, is that
of the book of ids (Spec/Ids.lean), in which ids are taken from one counter, or from two if the slice given to `New` has room for three
more bytes. -/
theorem C06_book (c : Config) (ops : List Op) (hb : Bounded c ops) (hf : ∀ op ∈ ops, Fits op) :
    ∃ w, Tr.history c ops = some (w, (Ids.history c.spare c.lease ops).2) := by
  obtain ⟨w0, h0, hr⟩ := Ids.rel_init c
  obtain ⟨hpos, hb⟩ := hb
  have e : c.lease + ops.length * c.lease = (ops.length + 1) * c.lease := by rw [Nat.add_mul, Nat.one_mul, Nat.add_comm]
  obtain ⟨w, h1, -⟩ := Ids.rel_run hpos ops (m := c.lease) (by omega) hr hf
  exact ⟨w, by simp only [Tr.history, h0, h1]; rfl⟩

/-! ## Which key an id is turned back into -/

/-- The keys in the order in which they were first answered, with their ids. -/
def Ids.assigned : List Out → List (Bytes × Nat)
  | outs => outs.foldl (fun acc o => match o with
      | .translated k n => if acc.any (fun p => p.1 == k) then acc else acc ++ [(k, n)]
      | _ => acc) []

/-- The last key that was given id `n`. -/
def Ids.lastWith (outs : List Out) (n : Nat) : Option Bytes := (((assigned outs).filter fun p => p.2 == n).getLast?).map (·.1)

theorem Ids.assigned_snoc (outs : List Out) (o : Out) : assigned (outs ++ [o]) = match o with
    | .translated k n => if (assigned outs).any (fun p => p.1 == k) then assigned outs else assigned outs ++ [(k, n)]
    | _ => assigned outs := by
  unfold assigned
  rw [List.foldl_append, List.foldl_cons, List.foldl_nil]

/-- The tables of the book in terms of the answers given. -/
structure Ids.Told (b : Book) (outs : List Out) : Prop where
  idOf : ∀ k n, b.idOf k = some n ↔ (k, n) ∈ assigned outs
  keyOf : ∀ n, b.keyOf n = lastWith outs n

theorem Ids.told_step {spare lease : Nat} {b : Book} {outs : List Out} (h : Told b outs) (op : Op) :
    Told (step spare lease b op).1 (outs ++ [(step spare lease b op).2]) := by
  have same : ∀ {b' : Book} {o : Out}, b'.idOf = b.idOf → b'.keyOf = b.keyOf → (∀ k n, o = .translated k n → b.idOf k = some n) → Told b' (outs ++ [o]) := by
    intro b' o h1 h2 h3
    have : assigned (outs ++ [o]) = assigned outs := by
      rw [assigned_snoc]
      cases o with
      | translated k n =>
        have := (h.idOf k n).1 (h3 k n rfl)
        simp only
        rw [if_pos]
        simp only [List.any_eq_true, beq_iff_eq]
        exact ⟨_, this, rfl⟩
      | _ => rfl
    exact ⟨fun k n => by rw [h1, this, h.idOf], fun n => by unfold lastWith; rw [h2, this, h.keyOf]; rfl⟩
  have hset : ∀ n, (b.setCounter spare n).idOf = b.idOf ∧ (b.setCounter spare n).keyOf = b.keyOf := fun n => ⟨setCounter_idOf _ _ _, setCounter_keyOf _ _ _⟩
  cases op with
  | begin t k =>
    simp only [step]
    cases hk : b.idOf k with
    | some n => exact same rfl rfl fun k' n' e => by cases e; exact hk
    | none =>
      refine same ?_ ?_ (fun k n e => by cases e)
      · show (b.draw spare lease).idOf = _
        unfold Book.draw; split
        · exact (hset _).1
        · rfl
      · show (b.draw spare lease).keyOf = _
        unfold Book.draw; split
        · exact (hset _).2
        · rfl
  | commit t sp =>
    simp only [step]
    cases hp : b.pending.find? (fun p => p.tid = t) with
    | none => exact same rfl rfl (fun k n e => by cases e)
    | some p =>
      simp only
      by_cases hc : sp = true ∨ (b.idOf p.key).isSome = true
      · rw [if_pos hc]; exact same rfl rfl (fun k n e => by cases e)
      · rw [if_neg hc]
        have hno : b.idOf p.key = none := by
          simp only [not_or, Option.isSome_iff_ne_none, ne_eq, Decidable.not_not] at hc; exact hc.2
        have hany : ¬ ((assigned outs).any (fun q => q.1 == p.key)) = true := by
          simp only [List.any_eq_true, beq_iff_eq]
          rintro ⟨⟨k, n⟩, hm, e⟩
          simp only at e
          subst e
          rw [← h.idOf, hno] at hm; cases hm
        have ha : assigned (outs ++ [.translated p.key p.id]) = assigned outs ++ [(p.key, p.id)] := by rw [assigned_snoc]; simp only; rw [if_neg hany]
        refine ⟨fun k n => ?_, fun n => ?_⟩
        · simp only [ha, List.mem_append, List.mem_singleton, Prod.mk.injEq, ← h.idOf]
          by_cases e : k = p.key
          · subst e; simp only [if_true, hno, Option.some.injEq, true_and, reduceCtorEq, false_or]; exact eq_comm
          · simp [e]
        · have hk := h.keyOf n
          unfold lastWith at hk ⊢
          simp only [ha, List.filter_append]
          by_cases e : n = p.id
          · subst e; simp
          · have : List.filter (fun q : Bytes × Nat => q.2 == n) [(p.key, p.id)] = [] := by simp; exact fun h => e h.symm
            rw [if_neg e, this, List.append_nil]; exact hk
  | find k => simp only [step]; cases hk : b.idOf k <;> exact same rfl rfl (fun k n e => by cases e)
  | lookup n => simp only [step]; cases hk : b.lookup spare n <;> exact same rfl rfl (fun k n e => by cases e)
  | bulk ns => exact same rfl rfl (fun k n e => by cases e)
  | close =>
    simp only [step]
    cases hc : b.counter spare with
    | none => exact same rfl rfl (fun k n e => by cases e)
    | some n =>
      simp only
      refine same ?_ ?_ (fun k n e => by cases e)
      · by_cases e : n = b.leased
        · rw [if_pos e]; exact (hset _).1
        · rw [if_neg e]
      · by_cases e : n = b.leased
        · rw [if_pos e]; exact (hset _).2
        · rw [if_neg e]
  | reopen => exact same rfl rfl (fun k n e => by cases e)

theorem Ids.told_run {spare lease : Nat} (ops : List Op) : ∀ {b : Book} {outs : List Out}, Told b outs →
    Told (run spare lease b ops).1 (outs ++ (run spare lease b ops).2) := by
  induction ops with
  | nil => intro b outs h; simpa [run] using h
  | cons op ops ih =>
    intro b outs h
    have := ih (told_step (spare := spare) (lease := lease) h op)
    simpa [run] using this

theorem Ids.told_history (spare lease : Nat) (ops : List Op) : Told (history spare lease ops).1 (history spare lease ops).2 := by
  have := told_run (spare := spare) (lease := lease) ops (b := ({} : Book).opened lease) (outs := [])
    ⟨fun k n => by simp [Book.opened, assigned], fun n => by simp [Book.opened, lastWith, assigned]⟩
  simpa [history] using this


theorem Ids.assigned_sub (outs : List Out) : ∀ k n, (k, n) ∈ assigned outs → .translated k n ∈ outs := by
  induction outs using List.reverseRecOn with
  | nil => intro k n h; cases h
  | append_singleton outs o ih =>
    intro k n h
    rw [assigned_snoc] at h
    have old : (k, n) ∈ assigned outs → .translated k n ∈ outs ++ [o] := fun h => List.mem_append_left _ (ih k n h)
    cases o with
    | translated k' n' =>
      simp only at h
      split at h
      · exact old h
      · rcases List.mem_append.1 h with h | h
        · exact old h
        · simp only [List.mem_singleton, Prod.mk.injEq] at h
          obtain ⟨rfl, rfl⟩ := h
          simp
    | _ => exact old h

/-- An entry in the table of keys stays. -/
theorem Ids.idOf_step {spare lease : Nat} {b : Book} {k : Bytes} {n : Nat} (op : Op) (h : b.idOf k = some n) : (step spare lease b op).1.idOf k = some n := by
  cases op with
  | begin t k' =>
    simp only [step]
    cases hk : b.idOf k' with
    | some n => exact h
    | none =>
      show (b.draw spare lease).idOf k = _
      unfold Book.draw; split
      · show (b.setCounter _ _).idOf k = _
        rw [setCounter_idOf]; exact h
      · exact h
  | commit t sp =>
    simp only [step]
    cases hp : b.pending.find? (fun p => p.tid = t) with
    | none => exact h
    | some p =>
      simp only
      by_cases hc : sp = true ∨ (b.idOf p.key).isSome = true
      · rw [if_pos hc]; exact h
      · rw [if_neg hc]
        have : k ≠ p.key := by rintro rfl; exact hc (Or.inr (by rw [h]; rfl))
        simp only [this, if_false]; exact h
  | find k => simp only [step]; cases b.idOf k <;> exact h
  | lookup n => simp only [step]; cases b.lookup spare n <;> exact h
  | bulk ns => exact h
  | close =>
    simp only [step]
    cases hc : b.counter spare with
    | none => exact h
    | some n =>
      simp only
      by_cases e : n = b.leased
      · rw [if_pos e]; show (b.setCounter _ _).idOf k = _; rw [setCounter_idOf]; exact h
      · rw [if_neg e]; exact h
  | reopen => exact h

theorem Ids.answered_step {spare lease : Nat} {b : Book} {op : Op} {k : Bytes} {n : Nat} (h : (step spare lease b op).2 = .translated k n) :
    (step spare lease b op).1.idOf k = some n := by
  cases op with
  | begin t k' =>
    simp only [step] at h ⊢
    cases hk : b.idOf k' with
    | some m => simp only [hk] at h ⊢; cases h; exact hk
    | none => simp only [hk] at h; cases h
  | commit t sp =>
    simp only [step] at h ⊢
    cases hp : b.pending.find? (fun p => p.tid = t) with
    | none => simp only [hp] at h; cases h
    | some p =>
      simp only [hp] at h ⊢
      by_cases hc : sp = true ∨ (b.idOf p.key).isSome = true
      · rw [if_pos hc] at h; cases h
      · rw [if_neg hc] at h ⊢
        cases h
        simp
  | find k => simp only [step] at h; cases hk : b.idOf k <;> (simp only [hk] at h; cases h)
  | lookup n => simp only [step] at h; cases hk : b.lookup spare n <;> (simp only [hk] at h; cases h)
  | bulk ns => simp only [step] at h; cases h
  | close => simp only [step] at h; cases hk : b.counter spare <;> (simp only [hk] at h; cases h)
  | reopen => simp only [step] at h; cases h

theorem Ids.idOf_run {spare lease : Nat} (ops : List Op) : ∀ {b : Book} {k : Bytes} {n : Nat},
    (b.idOf k = some n ∨ .translated k n ∈ (run spare lease b ops).2) → (run spare lease b ops).1.idOf k = some n := by
  induction ops with
  | nil => intro b k n h; rcases h with h | h
           · exact h
           · cases h
  | cons op ops ih =>
    intro b k n h
    refine ih (b := (step spare lease b op).1) ?_
    rcases h with h | h
    · exact Or.inl (idOf_step op h)
    · rcases List.mem_cons.1 h with h | h
      · exact Or.inl (answered_step h.symm)
      · exact Or.inr h

/-- The table of keys holds what was answered. -/
theorem Ids.idOf_history (spare lease : Nat) (ops : List Op) (k : Bytes) (n : Nat) :
    (history spare lease ops).1.idOf k = some n ↔ .translated k n ∈ (history spare lease ops).2 := by
  constructor
  · intro h; exact assigned_sub _ k n (((told_history spare lease ops).idOf k n).1 h)
  · intro h; exact idOf_run ops (Or.inr h)

/-- **C07**, exactly, for every capacity: at any point of any history `TranslateID(n)` returns, of the keys that were given id `n`, the
one that was given it last, and otherwise reports `n` missing, with one exception: if the slice given to `New` has room for four more
bytes, an id that was never given out and whose bytes are `s` and a key of seven bytes is answered with the id of that key. -/
theorem C07_exact (c : Config) (ops : List Op) (hb : Bounded c ops) (hf : ∀ op ∈ ops, Fits op) :
    ∃ w outs, Tr.history c ops = some (w, outs) ∧
      ∀ n, n < 2 ^ 64 → ∃ ans, Tr.step c w (.lookup n) = some (w, ans) ∧
        (∀ k, Ids.lastWith outs n = some k → ans = .keyOf n k) ∧
        (Ids.lastWith outs n = none →
          (∀ k7 i, 4 ≤ c.spare → u64tob n = 115 :: k7 → .translated k7 i ∈ outs → ans = .keyOf n (u64tob i)) ∧
          ((∀ k7 i, 4 ≤ c.spare → u64tob n = 115 :: k7 → .translated k7 i ∉ outs) → ans = .idMissing n)) := by
  obtain ⟨w0, h0, hr⟩ := Ids.rel_init c
  obtain ⟨hpos, hb⟩ := hb
  have e : c.lease + ops.length * c.lease = (ops.length + 1) * c.lease := by rw [Nat.add_mul, Nat.one_mul, Nat.add_comm]
  obtain ⟨w, h1, hrel⟩ := Ids.rel_run hpos ops (m := c.lease) (by omega) hr hf
  refine ⟨w, (Ids.history c.spare c.lease ops).2, by simp only [Tr.history, h0, h1]; rfl, fun n hn => ?_⟩
  have hk : (Ids.history c.spare c.lease ops).1.lookup c.spare n = w.db ((Tr.names c.pfx c.spare).ni ++ u64tob n) := (hrel.keyOf n hn).symm
  have ht := (Ids.told_history c.spare c.lease ops).keyOf n
  have hi := Ids.idOf_history c.spare c.lease ops
  generalize (Ids.history c.spare c.lease ops).1 = b at hk ht hi
  generalize (Ids.history c.spare c.lease ops).2 = outs at hk ht hi
  have hstep : ∀ o, b.lookup c.spare n = o → Tr.step c w (.lookup n) = some (w, match o with | some k => .keyOf n k | none => .idMissing n) := by
    intro o ho
    rw [hk] at ho
    simp only [Tr.step, hrel.ids, ho]
    cases o <;> rfl
  refine ⟨_, hstep _ rfl, ?_, ?_⟩
  · intro k hl
    simp only [Book.lookup, ht, hl]
  · intro hl
    constructor
    · intro k7 i hs hu hm
      have := (hi k7 i).2 hm
      simp only [Book.lookup, ht, hl, hs, hu, List.head?_cons, List.tail_cons, this]
      rfl
    · intro hno
      have : b.lookup c.spare n = none := by
        unfold Book.lookup
        simp only [ht, hl]
        by_cases hc : 4 ≤ c.spare ∧ (u64tob n).head? = some 115
        · rw [if_pos hc]
          obtain ⟨k7, hk7⟩ : ∃ k7, u64tob n = 115 :: k7 := by
            cases hu : u64tob n with
            | nil => rw [hu] at hc; simp at hc
            | cons a l => rw [hu] at hc; simp at hc; exact ⟨l, by rw [hc.2]⟩
          rw [hk7, List.tail_cons]
          cases hb : b.idOf k7 with
          | none => rfl
          | some i => exact absurd ((hi k7 i).1 hb) (hno k7 i hc.1 hk7)
        · rw [if_neg hc]
      rw [this]

/-! ## The ids of the first life -/

/-- The id the `i`-th new key is given. -/
def Ids.idAt (spare lease i : Nat) : Nat := if 3 ≤ spare ∧ lease ≤ i then i - lease else i

/-- `i` ids have been given out since an empty dictionary was opened. -/
def Ids.Given (spare lease : Nat) (b : Book) (i : Nat) : Prop :=
  if 3 ≤ spare then
    (i ≤ lease ∧ b.next = i ∧ b.leased = lease ∧ b.other = none) ∨
      (lease < i ∧ b.next = i - lease ∧ b.next ≤ b.leased ∧ b.other = some b.leased)
  else b.next = i ∧ i ≤ b.leased ∧ b.atOpen = some b.leased

theorem Ids.given_draw {spare lease : Nat} (hpos : 0 < lease) {b : Book} {i : Nat} (h : Given spare lease b i) (f : List Tr.Pending)
    (g : Bytes → Option Nat) (k : Nat → Option Bytes) :
    (b.draw spare lease).next = idAt spare lease i ∧
    Given spare lease { (b.draw spare lease) with next := (b.draw spare lease).next + 1, pending := f, idOf := g, keyOf := k } (i + 1) := by
  unfold Given at h ⊢
  unfold Book.draw Book.refill Book.setCounter Book.counter idAt Split
  by_cases hs : 3 ≤ spare
  · simp only [hs, if_true, true_and] at h ⊢
    rcases h with ⟨h1, h2, h3, h4⟩ | ⟨h1, h2, h3, h4⟩
    · by_cases hl : b.leased ≤ b.next
      · have : i = lease := by omega
        subst this
        simp [hl, h4]
        omega
      · have : ¬ lease ≤ i := by omega
        rw [if_neg hl, if_neg this]
        exact ⟨h2, Or.inl ⟨by omega, by omega, h3, h4⟩⟩
    · have hi : lease ≤ i := by omega
      by_cases hl : b.leased ≤ b.next
      · simp [hl, h4, hi]
        omega
      · rw [if_neg hl, if_pos hi]
        exact ⟨h2, Or.inr ⟨by omega, by omega, by omega, h4⟩⟩
  · simp only [hs, if_false, false_and] at h ⊢
    obtain ⟨h1, h2, h3⟩ := h
    by_cases hl : b.leased ≤ b.next
    · simp [hl, h3]; omega
    · rw [if_neg hl]
      exact ⟨h1, by omega, by omega, h3⟩

/-- What the keys `ks` are answered if `i` were given ids before. -/
def Ids.firstAnswers (spare lease : Nat) : Nat → List Bytes → List Out
  | _, [] => []
  | i, k :: ks => .started :: .translated k (idAt spare lease i) :: firstAnswers spare lease (i + 1) ks

theorem Ids.first_run {spare lease : Nat} (hpos : 0 < lease) (ks : List Bytes) : ∀ {b : Book} {i : Nat}, ks.Nodup →
    (∀ k ∈ ks, b.idOf k = none) → b.pending = [] → Given spare lease b i →
    (run spare lease b (ks.flatMap fun k => [.begin 0 k, .commit 0 false])).2 = firstAnswers spare lease i ks := by
  induction ks with
  | nil => intros; rfl
  | cons k ks ih =>
    intro b i hn hk hp hg
    obtain ⟨hnk, hn⟩ := List.nodup_cons.1 hn
    have h0 := hk k List.mem_cons_self
    have hd : (b.draw spare lease).idOf = b.idOf := by
      unfold Book.draw; split
      · exact setCounter_idOf _ _ _
      · rfl
    obtain ⟨e1, -⟩ := given_draw hpos hg [] b.idOf b.keyOf
    have e0 : step spare lease b (.begin 0 k) =
        ({ (b.draw spare lease) with next := (b.draw spare lease).next + 1, pending := [⟨0, k, (b.draw spare lease).next⟩] }, .started) := by
      simp only [step, h0, hp, List.nil_append]
    have e2 : ∀ (b' : Book), b'.pending = [⟨0, k, (b.draw spare lease).next⟩] → b'.idOf k = none →
        step spare lease b' (.commit 0 false) = ({ b' with
          pending := []
          idOf := fun k' => if k' = k then some (b.draw spare lease).next else b'.idOf k'
          keyOf := fun n => if n = (b.draw spare lease).next then some k else b'.keyOf n }, .translated k (b.draw spare lease).next) := by
      intro b' hp hi
      simp [step, hp, hi]
    rw [List.flatMap_cons]
    simp only [List.cons_append, List.nil_append, run, firstAnswers, e0]
    rw [e2 _ rfl (by simp only [hd]; exact h0), e1]
    refine congrArg (List.cons _) (congrArg (List.cons _) (ih hn ?_ rfl ?_))
    · intro k' hk'
      have : k' ≠ k := by rintro rfl; exact hnk hk'
      simp only [this, if_false, hd]
      exact hk k' (List.mem_cons_of_mem _ hk')
    · exact e1 ▸ (given_draw hpos hg _ _ _).2

theorem Ids.length_first (ks : List Bytes) : (ks.flatMap fun k => [Op.begin 0 k, Op.commit 0 false]).length = 2 * ks.length := by
  induction ks with
  | nil => rfl
  | cons k ks ih => rw [List.flatMap_cons, List.length_append, ih]; simp; omega

/-- **C06**, exactly, in the first life of a dictionary: new keys, one after the other, are given the ids 0, 1, 2, … if the slice given to
`New` has no room for three more bytes. If it has, the ids start again at 0 after the first lease of ids is used up. -/
theorem C06_first_life_exact (c : Config) (ks : List Bytes) (hn : ks.Nodup)
    (hb : Bounded c (ks.flatMap fun k => [Op.begin 0 k, Op.commit 0 false])) :
    ∃ w, Tr.history c (ks.flatMap fun k => [Op.begin 0 k, Op.commit 0 false]) = some (w, Ids.firstAnswers c.spare c.lease 0 ks) := by
  obtain ⟨w, h⟩ := C06_book c _ hb (by
    intro op hop
    simp only [List.mem_flatMap, List.mem_cons, List.not_mem_nil, or_false] at hop
    obtain ⟨k, -, rfl | rfl⟩ := hop <;> trivial)
  refine ⟨w, ?_⟩
  rw [h]
  unfold Ids.history
  rw [Ids.first_run hb.1 ks (i := 0) hn (fun _ _ => rfl) rfl ?_]
  unfold Ids.Given
  by_cases hs : 3 ≤ c.spare
  · rw [if_pos hs]; exact Or.inl ⟨Nat.zero_le _, rfl, by simp [Book.opened], rfl⟩
  · rw [if_neg hs]; exact ⟨rfl, Nat.zero_le _, by simp [Book.opened]⟩

/-- Two new keys share an id exactly if there is room for three bytes and one comes a lease after the other, in the first lease. -/
theorem C06_first_life_alias (spare lease i j : Nat) (hij : i < j) :
    Ids.idAt spare lease i = Ids.idAt spare lease j ↔ 3 ≤ spare ∧ j = i + lease ∧ i < lease := by
  unfold Ids.idAt
  split <;> split <;> omega

example : Bounded ⟨[1], 7, 2⟩ ([[10], [11], [12]].flatMap fun k => [Op.begin 0 k, Op.commit 0 false]) := by refine ⟨by decide, ?_⟩; decide
example : Ids.firstAnswers 7 2 0 [[10], [11], [12], [13], [14]] =
    [.started, .translated [10] 0, .started, .translated [11] 1, .started, .translated [12] 0, .started, .translated [13] 1, .started, .translated [14] 2] := rfl
/-- After the crossing the first id is turned back into the third key. -/
example : (Ids.history 7 2 (([[10], [11], [12]].flatMap fun k => [Op.begin 0 k, Op.commit 0 false]) ++ [.lookup 0, .lookup 1])).2.drop 6 =
    [.keyOf 0 [12], .keyOf 1 [11]] := rfl
example : Ids.lastWith (Ids.firstAnswers 7 2 0 [[10], [11], [12]]) 0 = some [12] := by decide

end Verif
