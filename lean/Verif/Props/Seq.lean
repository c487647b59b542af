import Verif.Model.Seq
import Verif.Lemmas.Translate
/-!
# C09: sample ids are unique and increasing for ever
-/
namespace Verif

namespace Sq

structure Inv (w : World) (bw m : Nat) : Prop where
  key : w.seq.key = seqKey
  bw : w.seq.bandwidth = bw
  store : w.db seqKey = some (u64tob w.seq.leased)
  nl : w.seq.next ≤ w.seq.leased
  bound : w.seq.leased ≤ m

theorem step_inv {w : World} {bw m : Nat} (hpos : 0 < bw) (hb : m < 2 ^ 64) (hi : Inv w bw m) (op : Op) :
    ∃ w' o, step bw w op = some (w', o) ∧ Inv w' bw (m + bw) ∧ w.seq.next ≤ w'.seq.next ∧
      (∀ n, o = some n → w.seq.next ≤ n ∧ n < w'.seq.next) := by
  have hL : w.seq.leased < 2 ^ 64 := by have := hi.bound; omega
  have hnl := hi.nl
  have hbd := hi.bound
  cases op with
  | sampleID =>
    simp only [step, Sequence.nextId]
    by_cases hl : w.seq.next ≥ w.seq.leased
    · obtain ⟨num, hnum, -, hnum2, hu⟩ := Tr.updateLease_of (db := w.db) (s := w.seq) (m := m) hb
        (by intro v hv; rw [hi.key, hi.store] at hv; cases hv; exact ⟨_, hi.bound, rfl⟩)
      have hnl2 : num = w.seq.leased := hnum2 _ hL (by rw [hi.key]; exact hi.store)
      simp only [hl, if_true, hu]
      refine ⟨_, _, rfl, ?_, ?_, ?_⟩
      · constructor
        · exact hi.key
        · exact hi.bw
        · simp only [hi.key, Tr.KV.set_same]
        · show num + 1 ≤ num + w.seq.bandwidth
          rw [hi.bw]; omega
        · show num + w.seq.bandwidth ≤ _
          rw [hi.bw]; omega
      · show w.seq.next ≤ num + 1; omega
      · intro n hn; cases hn; show _ ∧ num < num + 1; omega
    · simp only [hl, if_false]
      refine ⟨_, _, rfl, ?_, ?_, ?_⟩
      · constructor
        · exact hi.key
        · exact hi.bw
        · exact hi.store
        · show w.seq.next + 1 ≤ w.seq.leased; omega
        · show w.seq.leased ≤ _; omega
      · show w.seq.next ≤ w.seq.next + 1; omega
      · intro n hn; cases hn; show _ ∧ w.seq.next < w.seq.next + 1; omega
  | release =>
    simp only [step]
    rw [Tr.release_of (n := w.seq.leased) hL (by rw [hi.key]; exact hi.store)]
    refine ⟨_, _, rfl, ?_, Nat.le_refl _, by intro n h; cases h⟩
    simp only [ne_eq, not_true_eq_false, if_false]
    constructor
    · exact hi.key
    · exact hi.bw
    · simp only [hi.key, Tr.KV.set_same]
    · exact Nat.le_refl _
    · show w.seq.next ≤ _; omega
  | reopen =>
    simp only [step, getSequence]
    obtain ⟨num, hnum, -, hnum2, hu⟩ := Tr.updateLease_of (db := w.db)
      (s := { key := seqKey, next := 0, leased := 0, bandwidth := bw }) (m := m) hb
      (by intro v hv; simp only [hi.store] at hv; cases hv; exact ⟨_, hi.bound, rfl⟩)
    have hnl2 : num = w.seq.leased := hnum2 _ hL hi.store
    rw [hu]
    refine ⟨_, _, rfl, ?_, ?_, by intro n h; cases h⟩
    · constructor
      · rfl
      · rfl
      · simp only [Tr.KV.set_same]
      · show num ≤ num + bw; omega
      · show num + bw ≤ _; omega
    · show w.seq.next ≤ num; omega
  | other k v =>
    simp only [step]
    refine ⟨_, _, rfl, ?_, ?_, by intro n h; cases h⟩
    · by_cases hk : k = seqKey
      · rw [if_pos hk]; exact { hi with bound := by omega }
      · rw [if_neg hk]
        exact { hi with
          store := by simp only [Tr.KV.set_ne _ _ (Ne.symm hk)]; exact hi.store
          bound := by show w.seq.leased ≤ _; omega }
    · by_cases hk : k = seqKey
      · rw [if_pos hk]; exact Nat.le_refl _
      · rw [if_neg hk]; exact Nat.le_refl _

theorem run_increasing {bw : Nat} (hpos : 0 < bw) (ops : List Op) : ∀ {w : World} {m : Nat},
    m + ops.length * bw < 2 ^ 64 → Inv w bw m →
    ∃ ids, run bw w ops = some ids ∧ (∀ n ∈ ids, w.seq.next ≤ n) ∧ ids.Pairwise (· < ·) := by
  induction ops with
  | nil => intro w m _ _; exact ⟨[], rfl, by simp, .nil⟩
  | cons op ops ih =>
    intro w m hb hi
    rw [List.length_cons, Nat.add_mul, Nat.one_mul] at hb
    obtain ⟨w', o, hs, hi', hle, ho⟩ := step_inv hpos (by omega) hi op
    obtain ⟨ids, hr, hge, hp⟩ := ih (w := w') (m := m + bw) (by omega) hi'
    refine ⟨o.toList ++ ids, by simp [run, hs, hr], ?_, ?_⟩
    · intro n hn
      rcases List.mem_append.1 hn with h | h
      · cases o with
        | none => cases h
        | some x => simp at h; subst h; exact (ho _ rfl).1
      · exact Nat.le_trans hle (hge n h)
    · refine List.pairwise_append.2 ⟨?_, hp, ?_⟩
      · cases o <;> simp
      · intro a ha b hb
        cases o with
        | none => cases ha
        | some x => simp at ha; subst ha; have := (ho _ rfl).2; have := hge b hb; omega

end Sq

/-- **C09.** In every history of id allocations, releases, crashes and reopens, with any lease size and any other writes to
the database, no operation panics and the ids handed out are strictly increasing. The bound only excludes histories that
exhaust 64-bit leases (with the code's lease, 2^44 operations). -/
theorem C09_sample_ids_increasing (bw : Nat) (hpos : 0 < bw) (db : KV) (hdb : db Sq.seqKey = none) (ops : List Sq.Op)
    (hb : (ops.length + 1) * bw < 2 ^ 64) :
    ∃ ids, Sq.history bw db ops = some ids ∧ ids.Pairwise (· < ·) := by
  unfold Sq.history getSequence Sequence.updateLease
  rw [hdb]
  dsimp only
  rw [Nat.add_mul, Nat.one_mul] at hb
  obtain ⟨ids, hr, -, hp⟩ := Sq.run_increasing hpos ops (m := bw)
    (w := { db := KV.set db Sq.seqKey (u64tob (0 + bw)),
            seq := { key := Sq.seqKey, next := 0, leased := 0 + bw, bandwidth := bw } })
    (by omega)
    { key := rfl, bw := rfl, store := by simp only [Tr.KV.set_same], nl := by simp, bound := by simp }
  exact ⟨ids, hr, hp⟩

/-- Ids are also distinct. -/
theorem C09_sample_ids_unique (bw : Nat) (hpos : 0 < bw) (db : KV) (hdb : db Sq.seqKey = none) (ops : List Sq.Op)
    (hb : (ops.length + 1) * bw < 2 ^ 64) :
    ∃ ids, Sq.history bw db ops = some ids ∧ ids.Nodup := by
  obtain ⟨ids, h, hp⟩ := C09_sample_ids_increasing bw hpos db hdb ops hb
  exact ⟨ids, h, hp.imp (fun h => by omega)⟩

/-- Non-vacuity, with the code's lease: a crash skips the rest of the lease, a clean release does not. -/
example : Sq.history Sq.bandwidth KV.empty
    [.sampleID, .sampleID, .reopen, .sampleID, .release, .reopen, .sampleID, .other [1] [2], .sampleID]
    = some [0, 1, 1048576, 1048577, 1048578] := by rfl
example : (9 + 1) * Sq.bandwidth < 2 ^ 64 := by decide

end Verif
