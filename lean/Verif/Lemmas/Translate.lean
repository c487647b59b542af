import Verif.Model.Translate
import Verif.Lemmas.Bytes
/-! Helper lemmas on the dictionary: names after `New`, and the invariants of histories. -/
namespace Verif.Tr

/-- Names in the database used by an open dictionary: key of the first lease, key of later leases, key and id prefixes. -/
structure Names where
  n0 : Bytes
  ns : Bytes
  nk : Bytes
  ni : Bytes

/-- What the three appends of `New` leave behind. -/
def names (pfx : Bytes) (spare : Nat) : Names :=
  if spare < 3 then ⟨pfx ++ sSeq, pfx ++ sSeq, pfx ++ sKeys, pfx ++ sIds⟩
  else if spare = 3 then ⟨pfx ++ sSeq, pfx ++ sIds, pfx ++ sKeys, pfx ++ sIds⟩
  else ⟨pfx ++ sSeq, pfx ++ sIds, pfx ++ (sIds ++ [115]), pfx ++ sIds⟩

theorem new_eq (c : Config) (db : KV) :
    new c db =
      match getSequence db (names c.pfx c.spare).n0 c.lease with
      | none => none
      | some (db', seq) => some (db', { seq := { seq with key := (names c.pfx c.spare).ns },
                                         keys := (names c.pfx c.spare).nk, ids := (names c.pfx c.spare).ni }) := by
  obtain ⟨pfx, spare, lease⟩ := c
  have t : ∀ n, pfx.take (pfx.length + n) = pfx := fun n => List.take_of_length_le (by omega)
  have d : ∀ n, pfx.drop (pfx.length + n) = [] := fun n => List.drop_of_length_le (by omega)
  have t1 : ∀ n (l : Bytes), (pfx ++ l).take (pfx.length + n) = pfx ++ l.take n := by
    intro n l; rw [List.take_append, t]; simp
  have d1 : ∀ n (l : Bytes), (pfx ++ l).drop (pfx.length + n) = l.drop n := by
    intro n l; rw [List.drop_append, d]; simp
  by_cases h3 : spare < 3
  · have h1 : ¬ (3 ≤ spare) := by omega
    have h2 : ¬ (4 ≤ spare) := by omega
    simp [new, names, goAppend, sSeq, sKeys, sIds, Slice.read, h3, h1, h2, t1]
    cases getSequence db (pfx ++ [115, 101, 113]) lease <;> rfl
  · by_cases h4 : spare = 3
    · subst h4
      simp [new, names, goAppend, sSeq, sKeys, sIds, Slice.read, t1, d1]
      cases getSequence db (pfx ++ [115, 101, 113]) lease <;> rfl
    · obtain ⟨m, rfl⟩ : ∃ m, spare = m + 4 := ⟨spare - 4, by omega⟩
      have h2 : (4 ≤ m + 4) := by omega
      simp [new, names, goAppend, sSeq, sKeys, sIds, Slice.read, h3, h2, t1, d1, List.replicate_succ]
      cases getSequence db (pfx ++ [115, 101, 113]) lease <;> rfl

/-- No two kinds of entries share a database key, as long as ids stay below 2^56. -/
structure NamesOK (N : Names) : Prop where
  k_ne_s : ∀ a, N.nk ++ a ≠ N.ns
  k_ne_0 : ∀ a, N.nk ++ a ≠ N.n0
  k_ne_i : ∀ a n, n < 2 ^ 56 → N.nk ++ a ≠ N.ni ++ u64tob n
  i_ne_s : ∀ n, N.ni ++ u64tob n ≠ N.ns
  i_ne_0 : ∀ n, N.ni ++ u64tob n ≠ N.n0

theorem names_ok (pfx : Bytes) (spare : Nat) : NamesOK (names pfx spare) := by
  have hb : ∀ n, n < 2 ^ 56 → byteAt n 7 = 0 := by
    intro n hn
    apply UInt8.toNat_inj.1
    rw [byteAt_toNat]
    have : n / 256 ^ 7 = 0 := by apply Nat.div_eq_of_lt; omega
    simp [this]
  unfold names
  split
  · constructor <;> simp [sSeq, sKeys, sIds]
  · split
    · constructor <;> simp [sSeq, sKeys, sIds, u64tob]
    · constructor <;> simp [sSeq, sIds, u64tob]
      intro a n hn h
      rw [hb n (by simpa using hn)] at h
      simp at h

theorem u64tob_ids_inj {p : Bytes} {a b : Nat} (ha : a < 2 ^ 64) (hb : b < 2 ^ 64)
    (h : p ++ u64tob a = p ++ u64tob b) : a = b := u64tob_inj ha hb (List.append_cancel_left h)

theorem KV.set_same (db : KV) (k v : Bytes) : (db.set k v) k = some v := by simp [KV.set]
theorem KV.set_ne (db : KV) {k k' : Bytes} (v : Bytes) (h : k' ≠ k) : (db.set k v) k' = db k' := by
  simp [KV.set, h]

/-- Invariant that holds for every spare capacity. `m` bounds all leases taken so far. -/
structure StabInv (N : Names) (lease : Nat) (w : World) (m : Nat) : Prop where
  keys : w.tr.keys = N.nk
  ids : w.tr.ids = N.ni
  seq : w.tr.seq.key = N.ns
  bw : w.tr.seq.bandwidth = lease
  val : ∀ k v, w.db (N.nk ++ k) = some v → ∃ n, n < m ∧ v = u64tob n
  vs : ∀ v, w.db N.ns = some v → ∃ n, n ≤ m ∧ v = u64tob n
  v0 : ∀ v, w.db N.n0 = some v → ∃ n, n ≤ m ∧ v = u64tob n
  next : w.tr.seq.next ≤ m
  leased : w.tr.seq.leased ≤ m
  pend : ∀ p ∈ w.pending, p.id < m

/-- What one step does to the entries of keys. -/
structure StabStep (N : Names) (w w' : World) (o : Out) : Prop where
  mono : ∀ k v, w.db (N.nk ++ k) = some v → w'.db (N.nk ++ k) = some v
  translated : ∀ k n, o = .translated k n → w'.db (N.nk ++ k) = some (u64tob n) ∧ n < 2 ^ 56
  found : ∀ k n, o = .found k n → w.db (N.nk ++ k) = some (u64tob n) ∧ n < 2 ^ 56
  missing : ∀ k, o = .findMissing k → w.db (N.nk ++ k) = none
  fresh : ∀ k v, w'.db (N.nk ++ k) = some v →
    w.db (N.nk ++ k) = some v ∨ ∃ n, v = u64tob n ∧ o = .translated k n

theorem updateLease_of {db : KV} {s : Sequence} {m : Nat} (hm : m < 2 ^ 64)
    (h : ∀ v, db s.key = some v → ∃ n, n ≤ m ∧ v = u64tob n) :
    ∃ num, num ≤ m ∧ (db s.key = none → num = 0) ∧ (∀ n, n < 2 ^ 64 → db s.key = some (u64tob n) → num = n) ∧
      s.updateLease db = some (db.set s.key (u64tob (num + s.bandwidth)),
      { s with next := num, leased := num + s.bandwidth }) := by
  unfold Sequence.updateLease
  cases hk : db s.key with
  | none => exact ⟨0, by omega, by simp, by simp, by simp⟩
  | some v =>
    obtain ⟨n, hn, rfl⟩ := h v hk
    refine ⟨n, hn, by simp, fun n' hn' he => ?_, by simp [btou64_u64tob, Nat.mod_eq_of_lt (show n < 2 ^ 64 by omega)]⟩
    exact u64tob_inj (by omega) hn' (Option.some.inj he)

theorem release_of {db : KV} {s : Sequence} {n : Nat} (hn : n < 2 ^ 64) (h : db s.key = some (u64tob n)) :
    s.release db = some (.ok, if n ≠ s.leased then db else db.set s.key (u64tob s.next),
      { s with leased := s.next }) := by
  have hm : btou64 (u64tob n) = some n := by rw [btou64_u64tob, Nat.mod_eq_of_lt hn]
  unfold Sequence.release
  rw [h]
  dsimp only
  rw [hm]
  dsimp only
  split <;> rfl

theorem stab_step {N : Names} (hN : NamesOK N) {c : Config} (hnew : names c.pfx c.spare = N) (hpos : 0 < c.lease)
    {w : World} {m m' : Nat} (hle : m + c.lease = m') (hb : m' < 2 ^ 56) (hi : StabInv N c.lease w m) (op : Op) :
    ∃ w' o, step c w op = some (w', o) ∧ StabInv N c.lease w' m' ∧ StabStep N w w' o := by
  have hw : ∀ {n}, n < m → n < m' := by intro n hn; omega
  have hw' : ∀ {n}, n ≤ m → n ≤ m' := by intro n hn; omega
  have wk : StabInv N c.lease w m' :=
    { hi with
      val := fun k v h => (hi.val k v h).imp fun _ h => ⟨hw h.1, h.2⟩
      vs := fun v h => (hi.vs v h).imp fun _ h => ⟨hw' h.1, h.2⟩
      v0 := fun v h => (hi.v0 v h).imp fun _ h => ⟨hw' h.1, h.2⟩
      next := hw' hi.next, leased := hw' hi.leased, pend := fun p h => hw (hi.pend p h) }
  have dec56 : ∀ {n}, n < m → n % 2 ^ 64 = n := by intro n hn; apply Nat.mod_eq_of_lt; omega
  cases op with
  | begin t key =>
    simp only [step, hi.keys]
    cases hk : w.db (N.nk ++ key) with
    | some v =>
      obtain ⟨n, hn, rfl⟩ := hi.val _ _ hk
      refine ⟨w, .translated key n, by simp [btou64_u64tob, dec56 hn], wk, ?_⟩
      constructor
      · intros; assumption
      · rintro k m h; cases h; exact ⟨hk, by omega⟩
      · rintro k m h; cases h
      · rintro k h; cases h
      · intro k v h; exact Or.inl h
    | none =>
      simp only [Sequence.nextId]
      by_cases hl : w.tr.seq.next ≥ w.tr.seq.leased
      · obtain ⟨num, hnum, -, -, hu⟩ := updateLease_of (db := w.db) (s := w.tr.seq) (m := m) (by omega)
          (by rw [hi.seq]; exact hi.vs)
        simp only [hl, if_true, hu]
        rw [hi.seq]
        refine ⟨_, _, rfl, ?_, ?_⟩
        · have hle2 : num + w.tr.seq.bandwidth ≤ m' := by rw [hi.bw]; omega
          constructor
          · rfl
          · exact hi.ids
          · rfl
          · exact hi.bw
          · intro k v h
            simp only [KV.set_ne _ _ (hN.k_ne_s k)] at h
            exact wk.val k v h
          · intro v h
            simp only [KV.set_same, Option.some.injEq] at h
            exact ⟨_, hle2, h.symm⟩
          · intro v h
            by_cases he : N.n0 = N.ns
            · simp only [he, KV.set_same, Option.some.injEq] at h
              exact ⟨_, hle2, h.symm⟩
            · simp only [KV.set_ne _ _ he] at h
              exact wk.v0 v h
          · show num + 1 ≤ _
            omega
          · exact hle2
          · intro p hp
            rcases List.mem_append.1 hp with hp | hp
            · exact wk.pend p hp
            · rw [List.mem_singleton.1 hp]; show num < _; omega
        · constructor
          · intro k v h
            simp only [KV.set_ne _ _ (hN.k_ne_s k)]; exact h
          · rintro k m h; cases h
          · rintro k m h; cases h
          · rintro k h; cases h
          · intro k v h; exact Or.inl (by simpa only [KV.set_ne _ _ (hN.k_ne_s k)] using h)
      · simp only [hl, if_false]
        refine ⟨_, _, rfl, ?_, ?_⟩
        · have hx : w.tr.seq.next < m := by have := hi.leased; omega
          exact { wk with
            keys := rfl, ids := hi.ids, seq := hi.seq, bw := hi.bw
            next := by show w.tr.seq.next + 1 ≤ _; omega
            leased := wk.leased
            pend := by
              intro p hp
              rcases List.mem_append.1 hp with hp | hp
              · exact wk.pend p hp
              · rw [List.mem_singleton.1 hp]; exact hw hx }
        · constructor
          · intros; assumption
          · rintro k m h; cases h
          · rintro k m h; cases h
          · rintro k h; cases h
          · intro k v h; exact Or.inl h
  | commit t sp =>
    simp only [step, hi.keys, hi.ids]
    cases hf : w.pending.find? (fun p => p.tid = t) with
    | none =>
      refine ⟨_, _, rfl, wk, ?_⟩
      constructor
      · intros; assumption
      · rintro k m h; cases h
      · rintro k m h; cases h
      · rintro k h; cases h
      · intro k v h; exact Or.inl h
    | some p =>
      have hp : p ∈ w.pending := List.mem_of_find?_eq_some hf
      have hpid := hi.pend p hp
      by_cases hc : sp = true ∨ (w.db (N.nk ++ p.key)).isSome
      · simp only [hc, if_true]
        refine ⟨_, _, rfl, ?_, ?_⟩
        · exact { wk with pend := fun q hq => wk.pend q (List.mem_filter.1 hq).1 }
        · constructor
          · intros; assumption
          · rintro k m h; cases h
          · rintro k m h; cases h
          · rintro k h; cases h
          · intro k v h; exact Or.inl h
      · simp only [hc, if_false]
        have hnone : w.db (N.nk ++ p.key) = none := by
          simp only [not_or, Option.isSome_iff_ne_none, Decidable.not_not] at hc; exact hc.2
        have hki : ∀ k, N.nk ++ k ≠ N.ni ++ u64tob p.id := fun k => hN.k_ne_i k p.id (by omega)
        refine ⟨_, _, rfl, ?_, ?_⟩
        · exact { wk with
            val := by
              intro k v h
              simp only [KV.set_ne _ _ (hki k)] at h
              by_cases he : N.nk ++ k = N.nk ++ p.key
              · rw [he, KV.set_same, Option.some.injEq] at h
                exact ⟨p.id, hw hpid, h.symm⟩
              · rw [KV.set_ne _ _ he] at h; exact wk.val k v h
            vs := by
              intro v h
              simp only [KV.set_ne _ _ (Ne.symm (hN.i_ne_s p.id)), KV.set_ne _ _ (Ne.symm (hN.k_ne_s p.key))] at h
              exact wk.vs v h
            v0 := by
              intro v h
              simp only [KV.set_ne _ _ (Ne.symm (hN.i_ne_0 p.id)), KV.set_ne _ _ (Ne.symm (hN.k_ne_0 p.key))] at h
              exact wk.v0 v h
            pend := fun q hq => wk.pend q (List.mem_filter.1 hq).1 }
        · constructor
          · intro k v h
            simp only [KV.set_ne _ _ (hki k)]
            rw [KV.set_ne]
            · exact h
            · intro he; rw [he, hnone] at h; cases h
          · rintro k m h; cases h
            simp only [KV.set_ne _ _ (hki p.key), KV.set_same]
            exact ⟨trivial, by omega⟩
          · rintro k m h; cases h
          · rintro k h; cases h
          · intro k v h
            simp only [KV.set_ne _ _ (hki k)] at h
            by_cases he : k = p.key
            · subst he
              rw [KV.set_same, Option.some.injEq] at h
              exact Or.inr ⟨p.id, h.symm, rfl⟩
            · rw [KV.set_ne _ _ (fun e => he (List.append_cancel_left e))] at h
              exact Or.inl h
  | find key =>
    simp only [step, hi.keys]
    cases hk : w.db (N.nk ++ key) with
    | none =>
      refine ⟨_, _, rfl, wk, ?_⟩
      constructor
      · intros; assumption
      · rintro k m h; cases h
      · rintro k m h; cases h
      · rintro k h; cases h; exact hk
      · intro k v h; exact Or.inl h
    | some v =>
      obtain ⟨n, hn, rfl⟩ := hi.val _ _ hk
      refine ⟨w, .found key n, by simp [btou64_u64tob, dec56 hn], wk, ?_⟩
      constructor
      · intros; assumption
      · rintro k m h; cases h
      · rintro k m h; cases h; exact ⟨hk, by omega⟩
      · rintro k h; cases h
      · intro k v h; exact Or.inl h
  | lookup id =>
    simp only [step]
    cases w.db (w.tr.ids ++ u64tob id) <;>
    · refine ⟨_, _, rfl, wk, ?_⟩
      constructor
      · intros; assumption
      · rintro k m h; cases h
      · rintro k m h; cases h
      · rintro k h; cases h
      · intro k v h; exact Or.inl h
  | bulk ids =>
    refine ⟨_, _, rfl, wk, ?_⟩
    constructor
    · intros; assumption
    · rintro k m h; cases h
    · rintro k m h; cases h
    · rintro k h; cases h
    · intro k v h; exact Or.inl h
  | close =>
    simp only [step]
    cases hk : w.db N.ns with
    | none =>
      have hr : w.tr.seq.release w.db = some (.keyNotFound, w.db, w.tr.seq) := by
        unfold Sequence.release; rw [hi.seq, hk]
      rw [hr]
      refine ⟨_, _, rfl, wk, ?_⟩
      constructor
      · intros; assumption
      · rintro k m h; cases h
      · rintro k m h; cases h
      · rintro k h; cases h
      · intro k v h; exact Or.inl h
    | some v =>
      obtain ⟨n, hn, rfl⟩ := hi.vs _ hk
      rw [release_of (n := n) (by omega) (by rw [hi.seq]; exact hk)]
      refine ⟨_, _, rfl, ?_, ?_⟩
      · by_cases hl : n ≠ w.tr.seq.leased
        · rw [if_pos hl]
          exact { wk with leased := wk.next }
        · rw [if_neg hl, hi.seq]
          exact { wk with
            val := fun k v h => wk.val k v (by simpa only [KV.set_ne _ _ (hN.k_ne_s k)] using h)
            vs := fun v h => ⟨w.tr.seq.next, wk.next, by
              simp only [KV.set_same, Option.some.injEq] at h; exact h.symm⟩
            v0 := by
              intro v h
              by_cases he : N.n0 = N.ns
              · simp only [he, KV.set_same, Option.some.injEq] at h
                exact ⟨_, wk.next, h.symm⟩
              · simp only [KV.set_ne _ _ he] at h
                exact wk.v0 v h
            seq := rfl
            leased := wk.next }
      · constructor
        · intro k v h
          by_cases hl : n ≠ w.tr.seq.leased
          · rw [if_pos hl]; exact h
          · rw [if_neg hl, hi.seq]
            simp only [KV.set_ne _ _ (hN.k_ne_s k)]; exact h
        · rintro k m h; cases h
        · rintro k m h; cases h
        · rintro k h; cases h
        · intro k v h
          by_cases hl : n ≠ w.tr.seq.leased
          · rw [if_pos hl] at h; exact Or.inl h
          · rw [if_neg hl, hi.seq] at h
            exact Or.inl (by simpa only [KV.set_ne _ _ (hN.k_ne_s k)] using h)
  | reopen =>
    simp only [step, new_eq, hnew, getSequence]
    obtain ⟨num, hnum, -, -, hu⟩ := updateLease_of (db := w.db)
      (s := { key := N.n0, next := 0, leased := 0, bandwidth := c.lease }) (m := m) (by omega) hi.v0
    simp only [hu]
    refine ⟨_, _, rfl, ?_, ?_⟩
    · have hle2 : num + c.lease ≤ m' := by omega
      constructor
      · rfl
      · rfl
      · rfl
      · rfl
      · intro k v h
        simp only [KV.set_ne _ _ (hN.k_ne_0 k)] at h
        exact wk.val k v h
      · intro v h
        by_cases he : N.ns = N.n0
        · simp only [he, KV.set_same, Option.some.injEq] at h
          exact ⟨_, hle2, h.symm⟩
        · simp only [KV.set_ne _ _ he] at h
          exact wk.vs v h
      · intro v h
        simp only [KV.set_same, Option.some.injEq] at h
        exact ⟨_, hle2, h.symm⟩
      · exact hw' hnum
      · exact hle2
      · intro p hp; cases hp
    · constructor
      · intro k v h
        simp only [KV.set_ne _ _ (hN.k_ne_0 k)]; exact h
      · rintro k m h; cases h
      · rintro k m h; cases h
      · rintro k h; cases h
      · intro k v h; exact Or.inl (by simpa only [KV.set_ne _ _ (hN.k_ne_0 k)] using h)

end Verif.Tr
