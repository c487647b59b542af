import Verif.Lemmas.Translate3
/-!
# C05–C08: the dictionary over all histories

A history is a list of operations by any number of goroutines, with transaction commits that may fail, process crashes
and reopens anywhere (`Verif.Tr.Op`), run on a database that initially holds nothing. `Bounded` only excludes histories so
long that 64-bit ids would run out (with the code's lease of 4096, more than 2^43 operations).
-/
namespace Verif

open Tr

/-- The history is short enough for ids to stay below 2^56. -/
def Tr.Bounded (c : Config) (ops : List Op) : Prop := 0 < c.lease ∧ (ops.length + 1) * c.lease < 2 ^ 56

/-- The answer `n` was given for key `k` at some point of the history, by a translation or a lookup. -/
def Tr.Answered (outs : List Out) (k : Bytes) (n : Nat) : Prop := .translated k n ∈ outs ∨ .found k n ∈ outs

theorem Tr.history_stab {c : Config} {ops : List Op} (hb : Bounded c ops) :
    ∃ w0 w os, init c KV.empty = some w0 ∧ history c ops = some (w, os) ∧
      StabRun (names c.pfx c.spare) w0 w os ∧ StabInv (names c.pfx c.spare) c.lease w ((ops.length + 1) * c.lease) ∧
      (∀ k, w0.db ((names c.pfx c.spare).nk ++ k) = none) ∧
      (c.spare < 3 → FullInv (names c.pfx c.spare) c.lease w ((ops.length + 1) * c.lease)) := by
  obtain ⟨hpos, hb⟩ := hb
  have hf : Fresh c.pfx KV.empty := fun _ => rfl
  have e : c.lease + ops.length * c.lease = (ops.length + 1) * c.lease := by
    rw [Nat.add_mul, Nat.one_mul, Nat.add_comm]
  obtain ⟨hst, hnone⟩ := init_stab c hf (init_eq c hf)
  obtain ⟨w, os, hr, hi, hrun⟩ := stab_run (names_ok c.pfx c.spare) rfl hpos ops (m := c.lease) (by omega) hst
  refine ⟨_, w, os, init_eq c hf, by simp only [history, init_eq c hf, hr], hrun, e ▸ hi, hnone, ?_⟩
  intro hsp
  have hki : ∀ a n, (names c.pfx c.spare).nk ++ a ≠ (names c.pfx c.spare).ni ++ u64tob n := by
    rw [names_noalias hsp]; simp [sKeys, sIds]
  obtain ⟨w', os', hr', hi', -⟩ := full_run (names_ok c.pfx c.spare) (by rw [names_noalias hsp]) hki rfl hpos ops
    (m := c.lease) (by omega) (init_full c hsp hf (init_eq c hf))
  rw [hr] at hr'
  cases hr'
  exact e ▸ hi'

/-- **C05.** Whatever the history, all answers ever given for one key are the same id; no operation panics. Holds for
every capacity of the slice given to `New`. -/
theorem C05_ids_stable (c : Config) (ops : List Op) (hb : Bounded c ops) :
    ∃ w outs, history c ops = some (w, outs) ∧
      ∀ k n m, Answered outs k n → Answered outs k m → n = m := by
  obtain ⟨w0, w, os, -, hh, hr, -, -, -⟩ := history_stab hb
  refine ⟨w, os, hh, ?_⟩
  have key : ∀ k n, Answered os k n → w.db ((names c.pfx c.spare).nk ++ k) = some (u64tob n) ∧ n < 2 ^ 56 := by
    rintro k n (h | h)
    · exact hr.translated k n h
    · exact hr.found k n h
  intro k n m hn hm
  obtain ⟨h1, h2⟩ := key k n hn
  obtain ⟨h3, h4⟩ := key k m hm
  exact u64tob_inj (by omega) (by omega) (Option.some.inj (h1.symm.trans h3))

/-- **C06, what holds.** When the slice given to `New` has fewer than 3 bytes of unused capacity, an id is never given to
two keys, in any history. Missing for the full statement: larger capacities, for which it is false (see below). -/
theorem C06_ids_distinct_partial (c : Config) (ops : List Op) (hb : Bounded c ops) (hs : c.spare < 3) :
    ∃ w outs, history c ops = some (w, outs) ∧
      ∀ k k' n, Answered outs k n → Answered outs k' n → k = k' := by
  obtain ⟨w0, w, os, -, hh, hr, -, -, hfull⟩ := history_stab hb
  have hfull := hfull hs
  refine ⟨w, os, hh, ?_⟩
  have key : ∀ k n, Answered os k n → w.db ((names c.pfx c.spare).ni ++ u64tob n) = some k := by
    rintro k n (h | h)
    · have := hr.translated k n h; exact (hfull.k2i k n this.2 this.1).2
    · have := hr.found k n h; exact (hfull.k2i k n this.2 this.1).2
  intro k k' n h h'
  exact Option.some.inj ((key k n h).symm.trans (key k' n h'))

/-- **C06, refuted for the deployed program.** With the slice built by cmd/rq (one byte, capacity eight), translating 4097
different keys gives id 0 to the first and to the last one. -/
theorem C06_ids_distinct_refuted :
    ∃ ops w outs k k', history deployed ops = some (w, outs) ∧ k ≠ k' ∧
      .translated k 0 ∈ outs ∧ .translated k' 0 ∈ outs := by
  obtain ⟨w, os, h1, h2, h3, -⟩ := alias_dup deployed (by decide) (by decide) (by decide)
  exact ⟨_, w, os, _, _, h1, by decide, h2, h3⟩

/-- The same happens for every prefix, every capacity with at least three unused bytes, and every lease size. -/
theorem C06_alias_always_duplicates (c : Config) (hs : 3 ≤ c.spare) (hpos : 0 < c.lease) (hL : c.lease < 2 ^ 56) :
    ∃ ops w outs k k', history c ops = some (w, outs) ∧ k ≠ k' ∧
      .translated k 0 ∈ outs ∧ .translated k' 0 ∈ outs := by
  obtain ⟨w, os, h1, h2, h3, -⟩ := alias_dup c hs hpos hL
  exact ⟨_, w, os, _, _, h1, fun e => by have := u64tob_inj (by omega) (by omega) e; omega, h2, h3⟩

theorem Tr.run_last {c : Config} {w w1 : World} {ops : List Op} {op : Op} {os : List Out} {o : Out}
    (hr : run c w ops = some (w1, os)) (hs : step c w1 op = some (w1, o)) :
    run c w (ops ++ [op]) = some (w1, os ++ [o]) := by
  rw [run_append, hr]; simp [run, hs]

/-- **C07, what holds.** Without aliasing, asking for an id that was given out for `k` returns `k`, at any later point of
any history. (False with aliasing: `C07_inverse_refuted`.) -/
theorem C07_inverse_partial (c : Config) (ops : List Op) (hb : Bounded c ops) (hs : c.spare < 3) :
    ∃ w outs, history c ops = some (w, outs) ∧
      ∀ k n, Answered outs k n →
        history c (ops ++ [.lookup n]) = some (w, outs ++ [.keyOf n k]) := by
  obtain ⟨w0, w, os, hi, hh, hr, -, -, hfull⟩ := history_stab hb
  have hfull := hfull hs
  refine ⟨w, os, hh, ?_⟩
  intro k n ha
  have hd : w.db ((names c.pfx c.spare).ni ++ u64tob n) = some k := by
    rcases ha with h | h
    · have := hr.translated k n h; exact (hfull.k2i k n this.2 this.1).2
    · have := hr.found k n h; exact (hfull.k2i k n this.2 this.1).2
  simp only [history, hi] at hh ⊢
  exact run_last hh (by simp only [step, hfull.ids, hd])

/-- **C07.** Without aliasing, an id that was never given out is reported missing: an id resolves to `k` only if it was
given out for `k`. -/
theorem C07_only_assigned_partial (c : Config) (ops : List Op) (hb : Bounded c ops) (hs : c.spare < 3) :
    ∃ w outs, history c ops = some (w, outs) ∧
      ∀ n, n < 2 ^ 64 → (∀ k, ¬ Answered outs k n) →
        history c (ops ++ [.lookup n]) = some (w, outs ++ [.idMissing n]) := by
  obtain ⟨w0, w, os, hi, hh, hr, hinv, hnone, hfull⟩ := history_stab hb
  have hfull := hfull hs
  refine ⟨w, os, hh, ?_⟩
  intro n hn hno
  have hd : w.db ((names c.pfx c.spare).ni ++ u64tob n) = none := by
    cases h : w.db ((names c.pfx c.spare).ni ++ u64tob n) with
    | none => rfl
    | some k =>
      obtain ⟨h1, h2⟩ := hfull.i2k n k hn h
      rcases hr.fresh k _ h2 with h3 | ⟨m, h3, h4⟩
      · rw [hnone] at h3; cases h3
      · have hm := (hr.translated k m h4).2
        have := u64tob_inj hn (by omega) h3
        subst this
        exact absurd (Or.inl h4) (hno k)
  simp only [history, hi] at hh ⊢
  exact run_last hh (by simp only [step, hfull.ids, hd])

/-- **C07.** Without aliasing, bulk translation of ids that were given out returns exactly their keys, in order. -/
theorem C07_bulk_partial (c : Config) (ops : List Op) (hb : Bounded c ops) (hs : c.spare < 3) :
    ∃ w outs, history c ops = some (w, outs) ∧
      ∀ kns : List (Bytes × Nat), (∀ kn ∈ kns, Answered outs kn.1 kn.2) →
        history c (ops ++ [.bulk (kns.map (·.2))]) =
          some (w, outs ++ [.bulk (kns.map (·.2)) (kns.map (·.1)) true]) := by
  obtain ⟨w0, w, os, hi, hh, hr, -, -, hfull⟩ := history_stab hb
  have hfull := hfull hs
  refine ⟨w, os, hh, ?_⟩
  intro kns ha
  have hd : bulkKeys w.db (names c.pfx c.spare).ni (kns.map (·.2)) = (kns.map (·.1), true) := by
    induction kns with
    | nil => rfl
    | cons kn kns ih =>
      have h1 : w.db ((names c.pfx c.spare).ni ++ u64tob kn.2) = some kn.1 := by
        rcases ha kn (by simp) with h | h
        · have := hr.translated _ _ h; exact (hfull.k2i _ _ this.2 this.1).2
        · have := hr.found _ _ h; exact (hfull.k2i _ _ this.2 this.1).2
      simp only [List.map_cons, bulkKeys, h1, ih (fun x hx => ha x (by simp [hx]))]
  simp only [history, hi] at hh ⊢
  exact run_last hh (by simp only [step, hfull.ids, hd])

/-- **C07.** Without aliasing, bulk translation reports failure at the first id that was never given out, after handing over
the keys of the ids before it, whatever follows. -/
theorem C07_bulk_missing_partial (c : Config) (ops : List Op) (hb : Bounded c ops) (hs : c.spare < 3) :
    ∃ w outs, history c ops = some (w, outs) ∧
      ∀ (kns : List (Bytes × Nat)) (n : Nat) (rest : List Nat), (∀ kn ∈ kns, Answered outs kn.1 kn.2) → n < 2 ^ 64 →
        (∀ k, ¬ Answered outs k n) →
        history c (ops ++ [.bulk (kns.map (·.2) ++ n :: rest)]) =
          some (w, outs ++ [.bulk (kns.map (·.2) ++ n :: rest) (kns.map (·.1)) false]) := by
  obtain ⟨w0, w, os, hi, hh, hr, hinv, hnone, hfull⟩ := history_stab hb
  have hfull := hfull hs
  refine ⟨w, os, hh, ?_⟩
  intro kns n rest ha hn hno
  have hd0 : w.db ((names c.pfx c.spare).ni ++ u64tob n) = none := by
    cases h : w.db ((names c.pfx c.spare).ni ++ u64tob n) with
    | none => rfl
    | some k =>
      obtain ⟨h1, h2⟩ := hfull.i2k n k hn h
      rcases hr.fresh k _ h2 with h3 | ⟨m, h3, h4⟩
      · rw [hnone] at h3; cases h3
      · have hm := (hr.translated k m h4).2
        have := u64tob_inj hn (by omega) h3
        subst this
        exact absurd (Or.inl h4) (hno k)
  have hd : bulkKeys w.db (names c.pfx c.spare).ni (kns.map (·.2) ++ n :: rest) = (kns.map (·.1), false) := by
    induction kns with
    | nil => simp [bulkKeys, hd0]
    | cons kn kns ih =>
      have h1 : w.db ((names c.pfx c.spare).ni ++ u64tob kn.2) = some kn.1 := by
        rcases ha kn (by simp) with h | h
        · have := hr.translated _ _ h; exact (hfull.k2i _ _ this.2 this.1).2
        · have := hr.found _ _ h; exact (hfull.k2i _ _ this.2 this.1).2
      simp only [List.map_cons, List.cons_append, bulkKeys, h1, ih (fun x hx => ha x (by simp [hx]))]
  simp only [history, hi] at hh ⊢
  exact run_last hh (by simp only [step, hfull.ids, hd])

/-- **C07, refuted for the deployed program.** After 4097 translations, id 0, which was returned for the first key, resolves
to a different key. -/
theorem C07_inverse_refuted :
    ∃ ops w outs k k', history deployed ops = some (w, outs) ∧ k ≠ k' ∧ .translated k 0 ∈ outs ∧
      step deployed w (.lookup 0) = some (w, .keyOf 0 k') := by
  obtain ⟨w, os, h1, h2, -, h4⟩ := alias_dup deployed (by decide) (by decide) (by decide)
  exact ⟨_, w, os, _, _, h1, by decide, h2, h4⟩

/-- **C08.** Find answers exactly what was translated before, reports anything else missing, and changes nothing (the world
after it is the world before it). Holds for every slice capacity. -/
theorem C08_find_exact (c : Config) (ops : List Op) (hb : Bounded c ops) :
    ∃ w outs, history c ops = some (w, outs) ∧
      ∀ k, (∀ n, .translated k n ∈ outs → history c (ops ++ [.find k]) = some (w, outs ++ [.found k n])) ∧
           ((∀ n, .translated k n ∉ outs) → history c (ops ++ [.find k]) = some (w, outs ++ [.findMissing k])) := by
  obtain ⟨w0, w, os, hi, hh, hr, hinv, hnone, -⟩ := history_stab hb
  refine ⟨w, os, hh, ?_⟩
  intro k
  simp only [history, hi] at hh ⊢
  constructor
  · intro n hn
    obtain ⟨h1, h2⟩ := hr.translated k n hn
    have hm : btou64 (u64tob n) = some n := by rw [btou64_u64tob, Nat.mod_eq_of_lt (by omega)]
    exact run_last hh (by simp only [step, hinv.keys, h1, hm])
  · intro hno
    have hd : w.db ((names c.pfx c.spare).nk ++ k) = none := by
      cases h : w.db ((names c.pfx c.spare).nk ++ k) with
      | none => rfl
      | some v =>
        rcases hr.fresh k v h with h3 | ⟨m, h3, h4⟩
        · rw [hnone] at h3; cases h3
        · exact absurd h4 (hno m)
    exact run_last hh (by simp only [step, hinv.keys, hd])

/-- Non-vacuity: a history with a conflict between two goroutines translating the same key, a crash and a reopen
satisfies the hypotheses; the key keeps its id, the loser of the race fails, ids 2 … 4095 are skipped by the crash. -/
def Tr.exampleOps : List Op :=
  [.begin 1 [97], .begin 2 [97], .commit 2 false, .commit 1 false, .reopen, .begin 3 [98], .commit 3 false, .find [97]]

example : Bounded { deployed with spare := 0 } exampleOps := by constructor <;> decide

example : (history { deployed with spare := 0 } exampleOps).map (·.2) =
    some [.started, .started, .translated [97] 1, .failed, .opened, .started, .translated [98] 4096, .found [97] 1] := by
  rfl

end Verif
