import Verif.Props.Translate
import Verif.Lemmas.Life
import Mathlib.Data.List.TakeWhile
/-!
# C06, C07 for the deployed program

As deployed, the slice given to `New` has room for the names to overwrite each other (`C06_ids_distinct_refuted`). Here: exactly
how far the dictionary can be trusted then.
-/
namespace Verif
open Tr

/-- Starts a translation. -/
def Tr.isBegin : Op → Bool
  | .begin _ _ => true
  | _ => false

/-- Between two starts of the process there are at most as many translations as the sequence leases at a time (4096). -/
def Tr.ShortLives (c : Config) (ops : List Op) : Prop :=
  ∀ pre mid post, ops = pre ++ mid ++ post → (∀ op ∈ mid, op ≠ .reopen) → mid.countP isBegin ≤ c.lease

namespace Tr

/-- The translations before the next start. -/
def ahead (ops : List Op) : Nat := (ops.takeWhile fun op => match op with | .reopen => false | _ => true).countP isBegin

theorem ahead_le {c : Config} {ops : List Op} (h : ShortLives c ops) : ahead ops ≤ c.lease := by
  refine h [] _ (ops.dropWhile _) (by rw [List.nil_append, List.takeWhile_append_dropWhile]) fun op hm => ?_
  rintro rfl
  have := List.mem_takeWhile_imp hm
  cases this

theorem ShortLives.tail {c : Config} {op : Op} {ops : List Op} (h : ShortLives c (op :: ops)) : ShortLives c ops := by
  intro pre mid post e hm
  exact h (op :: pre) mid post (by simp [e]) hm

theorem names_same {pfx : Bytes} {spare : Nat} (h : spare < 3) : (names pfx spare).ns = (names pfx spare).n0 := by
  rw [names_noalias h]

/-- How a step moves the sequence. -/
theorem step_room {N : Names} {c : Config} {w w' : World} {o : Out} {op : Op} (hi : LifeInv N c.lease w) (hr : op ≠ .reopen)
    (hc : N.ns ≠ N.n0 → isBegin op → w.tr.seq.next < w.tr.seq.leased) (h : step c w op = some (w', o)) :
    w'.tr.seq.leased ≤ w.tr.seq.leased + c.lease ∧
    (N.ns ≠ N.n0 → w'.tr.seq.leased = w.tr.seq.leased ∧ w'.tr.seq.next ≤ w.tr.seq.next + [op].countP isBegin) := by
  have hsm := hi.small
  have same : w'.tr = w.tr → w'.tr.seq.leased ≤ w.tr.seq.leased + c.lease ∧
    (N.ns ≠ N.n0 → w'.tr.seq.leased = w.tr.seq.leased ∧ w'.tr.seq.next ≤ w.tr.seq.next + [op].countP isBegin) := by
    intro e; rw [e]; exact ⟨by omega, fun _ => ⟨rfl, by omega⟩⟩
  cases op with
  | begin t key =>
    simp only [step, hi.keys] at h
    split at h
    · split at h <;> cases h
      exact same rfl
    · simp only [Sequence.nextId] at h
      by_cases hl : w.tr.seq.next ≥ w.tr.seq.leased
      · by_cases e : N.ns = N.n0
        · obtain ⟨num, hnum, -, -, hu⟩ := updateLease_of (db := w.db) (s := w.tr.seq) (m := w.tr.seq.leased) (by omega)
            (by rw [hi.seq]; exact hi.stab.vs)
          simp only [hl, if_true, hu] at h
          cases h
          refine ⟨?_, fun h => absurd e h⟩
          show num + w.tr.seq.bandwidth ≤ _
          rw [hi.bw]; omega
        · have := hc e rfl
          omega
      · simp only [hl, if_false] at h
        cases h
        exact ⟨by simp, fun _ => ⟨rfl, by simp [isBegin]⟩⟩
  | commit t sp =>
    simp only [step] at h
    split at h
    · cases h; exact same rfl
    · split at h <;> cases h <;> exact same rfl
  | find key =>
    simp only [step] at h
    split at h
    · cases h; exact same rfl
    · split at h <;> cases h
      exact same rfl
  | lookup id =>
    simp only [step] at h
    split at h <;> cases h <;> exact same rfl
  | bulk ids =>
    simp only [step] at h
    cases h
    exact same rfl
  | close =>
    simp only [step] at h
    by_cases e : N.ns = N.n0
    · rw [release_of (n := w.tr.seq.leased) (by omega) (by rw [hi.seq, e]; exact hi.store)] at h
      cases h
      refine ⟨?_, fun h => absurd e h⟩
      show w.tr.seq.next ≤ _
      have := hi.nl; omega
    · have hr : w.tr.seq.release w.db = some (.keyNotFound, w.db, w.tr.seq) := by
        unfold Sequence.release; rw [hi.seq, hi.unset e]
      rw [hr] at h
      cases h
      exact same rfl
  | reopen => exact absurd rfl hr

theorem reopen_room {c : Config} {w w' : World} {o : Out} (hi : LifeInv (names c.pfx c.spare) c.lease w) (h : step c w .reopen = some (w', o)) :
    w'.tr.seq.leased = w.tr.seq.leased + c.lease ∧ w'.tr.seq.next = w.tr.seq.leased := by
  have hsm := hi.small
  simp only [step, new_eq, getSequence] at h
  obtain ⟨num, hnum, -, hnum2, hu⟩ := updateLease_of (db := w.db)
    (s := { key := (names c.pfx c.spare).n0, next := 0, leased := 0, bandwidth := c.lease }) (m := w.tr.seq.leased) (by omega) hi.stab.v0
  have hnl : num = w.tr.seq.leased := hnum2 _ (by omega) hi.store
  simp only [hu] at h
  cases h
  exact ⟨by show num + c.lease = _; omega, hnl⟩

theorem ahead_cons {op : Op} {ops : List Op} (h : op ≠ .reopen) : ahead (op :: ops) = ahead ops + [op].countP isBegin := by
  unfold ahead
  rw [List.takeWhile_cons_of_pos (by cases op <;> first | rfl | exact absurd rfl h)]
  rw [List.countP_cons, List.countP_singleton]

theorem life_run {c : Config} (hpos : 0 < c.lease) : ∀ (ops : List Op) {w : World}, LifeInv (names c.pfx c.spare) c.lease w →
    w.tr.seq.leased + (ops.length + 2) * c.lease < 2 ^ 56 →
    (¬ c.spare < 3 → ShortLives c ops ∧ w.tr.seq.next + ahead ops ≤ w.tr.seq.leased) →
    ∃ w' os, run c w ops = some (w', os) ∧ LifeInv (names c.pfx c.spare) c.lease w' ∧ StabRun (names c.pfx c.spare) w w' os := by
  intro ops
  induction ops with
  | nil =>
    intro w hi _ _
    refine ⟨w, [], rfl, hi, ?_⟩
    constructor
    · exact fun _ _ h => h
    · rintro k n h; cases h
    · rintro k n h; cases h
    · exact fun k v h => .inl h
  | cons op ops ih =>
    intro w hi hb hs
    have hN := names_ok c.pfx c.spare
    have hal : (names c.pfx c.spare).ns ≠ (names c.pfx c.spare).n0 → ¬ c.spare < 3 := fun h h' => h (names_same h')
    rw [List.length_cons] at hb
    have hbb : w.tr.seq.leased + c.lease + (ops.length + 2) * c.lease < 2 ^ 56 := by
      have : (ops.length + 1 + 2) * c.lease = c.lease + (ops.length + 2) * c.lease := by
        rw [show ops.length + 1 + 2 = 1 + (ops.length + 2) by omega, Nat.add_mul, Nat.one_mul]
      omega
    have h2 : 2 * c.lease ≤ (ops.length + 2) * c.lease := Nat.mul_le_mul_right _ (by omega)
    have hroom : Room (names c.pfx c.spare) c.lease w op := by
      cases op with
      | begin t key =>
        by_cases h3 : c.spare < 3
        · exact .inr (.inr ⟨names_same h3, by omega⟩)
        · have := (hs h3).2
          rw [ahead_cons (by simp)] at this
          refine .inr (.inl ?_)
          simp [isBegin] at this
          omega
      | reopen => show _ < _; omega
      | _ => trivial
    obtain ⟨w1, o, h1, hi1, hf⟩ := life_step hN rfl hpos hi op hroom
    have hnext : w1.tr.seq.leased + (ops.length + 2) * c.lease < 2 ^ 56 ∧ (¬ c.spare < 3 → w1.tr.seq.next + ahead ops ≤ w1.tr.seq.leased) := by
      by_cases hop : op = .reopen
      · subst hop
        obtain ⟨a, b⟩ := reopen_room hi h1
        refine ⟨by omega, fun h3 => ?_⟩
        have := ahead_le (hs h3).1.tail
        omega
      · obtain ⟨a, b⟩ := step_room hi hop (fun hne hbg => by
          have := (hs (hal hne)).2
          rw [ahead_cons hop, List.countP_singleton, if_pos hbg] at this
          omega) h1
        refine ⟨by omega, fun h3 => ?_⟩
        have := (hs h3).2
        rw [ahead_cons hop] at this
        by_cases hne : (names c.pfx c.spare).ns ≠ (names c.pfx c.spare).n0
        · obtain ⟨x, y⟩ := b hne; omega
        · exfalso
          apply hne
          unfold names
          rw [if_neg h3]
          split <;> simp [sIds, sSeq]
    obtain ⟨w2, os, hr, hi2, hst⟩ := ih hi1 hnext.1 (fun h3 => ⟨(hs h3).1.tail, hnext.2 h3⟩)
    exact ⟨w2, o :: os, by simp only [run, h1, hr], hi2, .cons hf.toStabStep hst⟩

theorem init_life {c : Config} (hb : 2 * c.lease < 2 ^ 56) {db : KV} (hf : Fresh c.pfx db) {w : World} (h : init c db = some w) :
    LifeInv (names c.pfx c.spare) c.lease w ∧ w.tr.seq.leased = c.lease ∧ w.tr.seq.next = 0 ∧ w.pending = [] := by
  obtain ⟨hst, hnone⟩ := init_stab c hf h
  have hN := names_ok c.pfx c.spare
  rw [init_eq c hf] at h
  cases h
  refine ⟨{ hst with
    store := by simp only [KV.set_same]
    unset := fun e => by
      simp only [KV.set_ne _ _ e]
      obtain ⟨s, hs⟩ := (names_prefix c.pfx c.spare).2.1
      rw [hs]; exact hf s
    nl := Nat.zero_le _
    small := by show c.lease + c.lease < _; omega
    val := fun k v h => by rw [hnone k] at h; cases h
    i2k := fun n k _ h => by
      simp only [KV.set_ne _ _ (hN.i_ne_0 n)] at h
      obtain ⟨s, hs⟩ := (names_prefix c.pfx c.spare).2.2.2
      rw [hs, List.append_assoc, hf] at h; cases h
    pnext := fun p hp => by cases hp
    pdist := .nil }, rfl, rfl, rfl⟩

theorem history_life {c : Config} {ops : List Op} (hpos : 0 < c.lease) (hb : (ops.length + 3) * c.lease < 2 ^ 56) (hs : c.spare < 3 ∨ ShortLives c ops) :
    ∃ w0 w os, init c KV.empty = some w0 ∧ history c ops = some (w, os) ∧ LifeInv (names c.pfx c.spare) c.lease w ∧
      StabRun (names c.pfx c.spare) w0 w os ∧ ∀ k, w0.db ((names c.pfx c.spare).nk ++ k) = none := by
  have hf : Fresh c.pfx KV.empty := fun _ => rfl
  have e3 : (ops.length + 3) * c.lease = c.lease + (ops.length + 2) * c.lease := by
    rw [show ops.length + 3 = 1 + (ops.length + 2) by omega, Nat.add_mul, Nat.one_mul]
  have h2 : 2 * c.lease ≤ (ops.length + 2) * c.lease := Nat.mul_le_mul_right _ (by omega)
  obtain ⟨hst, hnone⟩ := init_stab c hf (init_eq c hf)
  obtain ⟨hi, hl, hn, -⟩ := init_life (by omega) hf (init_eq c hf)
  obtain ⟨w', os, a, b, d⟩ := life_run hpos ops hi (by rw [hl]; omega) (fun h3 => by
    have hs' := hs.resolve_left h3
    refine ⟨hs', ?_⟩
    have := ahead_le hs'
    rw [hl, hn]; omega)
  exact ⟨_, w', os, init_eq c hf, by simp only [history, init_eq c hf, a], b, d, hnone⟩

end Tr

/-- **C06**, what holds of the program as deployed (and of every capacity of the slice given to `New`): an id is never given to two
keys in a history in which no process starts more translations than one lease (4096). Missing: longer lives, in which it fails
as soon as there is one more new key (`C06_ids_distinct_refuted`). -/
theorem C06_short_lives_partial (c : Config) (ops : List Op) (hpos : 0 < c.lease) (hb : (ops.length + 3) * c.lease < 2 ^ 56) (hs : ShortLives c ops) :
    ∃ w outs, history c ops = some (w, outs) ∧ ∀ k k' n, Answered outs k n → Answered outs k' n → k = k' := by
  obtain ⟨w0, w, os, -, hh, hi, hr, -⟩ := history_life hpos hb (.inr hs)
  refine ⟨w, os, hh, ?_⟩
  have key : ∀ k n, Answered os k n → w.db ((names c.pfx c.spare).ni ++ u64tob n) = some k := by
    intro k n h
    obtain ⟨h1, h2⟩ : w.db ((names c.pfx c.spare).nk ++ k) = some (u64tob n) ∧ n < 2 ^ 56 := by
      rcases h with h | h
      · exact hr.translated k n h
      · exact hr.found k n h
    obtain ⟨m, a, b, d⟩ := hi.val _ _ h1
    have hm := hi.nl
    have hsm := hi.small
    rw [u64tob_inj (by omega) (by omega) b]; exact d
  intro k k' n h h'
  exact Option.some.inj ((key k n h).symm.trans (key k' n h'))

/-- **C07**, what holds of the program as deployed, in the same histories: an id resolves to the key it was given out for, and ids
below 2^56 that were never given out are reported missing. -/
theorem C07_short_lives_partial (c : Config) (ops : List Op) (hpos : 0 < c.lease) (hb : (ops.length + 3) * c.lease < 2 ^ 56) (hs : ShortLives c ops) :
    ∃ w outs, history c ops = some (w, outs) ∧
      (∀ k n, Answered outs k n → history c (ops ++ [.lookup n]) = some (w, outs ++ [.keyOf n k])) ∧
      ∀ n, n < 2 ^ 56 → (∀ k, ¬ Answered outs k n) → history c (ops ++ [.lookup n]) = some (w, outs ++ [.idMissing n]) := by
  obtain ⟨w0, w, os, hini, hh, hi, hr, hnone⟩ := history_life hpos hb (.inr hs)
  have hsm := hi.small
  have hnl := hi.nl
  refine ⟨w, os, hh, fun k n h => ?_, fun n hn hno => ?_⟩
  · obtain ⟨h1, h2⟩ : w.db ((names c.pfx c.spare).nk ++ k) = some (u64tob n) ∧ n < 2 ^ 56 := by
      rcases h with h | h
      · exact hr.translated k n h
      · exact hr.found k n h
    obtain ⟨m, a, b, d⟩ := hi.val _ _ h1
    have := u64tob_inj (by omega) (by omega) b
    subst this
    simp only [history, hini] at hh ⊢
    exact run_last hh (by simp only [step, hi.ids, d])
  · have hd : w.db ((names c.pfx c.spare).ni ++ u64tob n) = none := by
      cases h : w.db ((names c.pfx c.spare).ni ++ u64tob n) with
      | none => rfl
      | some k =>
        obtain ⟨h1, h2⟩ := hi.i2k n k hn h
        rcases hr.fresh k _ h2 with h3 | ⟨m, h3, h4⟩
        · rw [hnone] at h3; cases h3
        · have hm := (hr.translated k m h4).2
          have := u64tob_inj (by omega) (by omega) h3
          subst this
          exact absurd (Or.inl h4) (hno k)
    simp only [history, hini] at hh ⊢
    exact run_last hh (by simp only [step, hi.ids, hd])

/-- Short histories have short lives. -/
theorem Tr.short_of_length {c : Config} {ops : List Op} (h : ops.length ≤ c.lease) : ShortLives c ops := by
  rintro pre mid post rfl -
  have := List.countP_le_length (p := isBegin) (l := mid)
  simp only [List.length_append] at h
  omega

/-- The history of `Tr.exampleOps` (two goroutines, a conflict, a crash) on the deployed configuration meets the hypotheses. -/
example : ShortLives deployed exampleOps ∧ (exampleOps.length + 3) * deployed.lease < 2 ^ 56 ∧
    (history deployed exampleOps).map (·.2) =
      some [.started, .started, .translated [97] 1, .failed, .opened, .started, .translated [98] 4096, .found [97] 1] :=
  ⟨short_of_length (by decide), by decide, by rfl⟩

end Verif
