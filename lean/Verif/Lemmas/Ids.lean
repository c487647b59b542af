import Verif.Lemmas.Translate3
import Verif.Spec.Ids
/-! The dictionary refines the book of ids. -/
namespace Verif.Ids
open Tr (Op Out World Config Names NamesOK names names_ok StabInv KV.set_same KV.set_ne updateLease_of release_of stab_step)

theorem names_split (pfx : Bytes) (spare : Nat) : (names pfx spare).n0 = (names pfx spare).ns ↔ ¬ Split spare := by
  unfold names Split
  by_cases h : spare < 3
  · simp [h]
  · by_cases h' : spare = 3
    · simp [h', Tr.sSeq, Tr.sIds]
    · simp [h, h', Tr.sSeq, Tr.sIds]

/-- Entries of keys and of ids meet only with room for four more bytes. -/
theorem names_meet (pfx k : Bytes) (spare n : Nat) :
    (names pfx spare).nk ++ k = (names pfx spare).ni ++ u64tob n ↔ 4 ≤ spare ∧ u64tob n = 115 :: k := by
  unfold names
  by_cases h : spare < 3
  · have : ¬ 4 ≤ spare := by omega
    simp [h, Tr.sKeys, Tr.sIds, this]
  · by_cases h' : spare = 3
    · have : ¬ 4 ≤ spare := by omega
      simp [h', Tr.sKeys, Tr.sIds]
    · have : 4 ≤ spare := by omega
      simp only [h, h', if_false, Tr.sIds, List.append_assoc, List.append_cancel_left_eq, List.cons_append, List.nil_append, List.cons.injEq, true_and, this]
      exact eq_comm

structure Rel (c : Config) (w : World) (b : Book) (m : Nat) : Prop extends StabInv (names c.pfx c.spare) c.lease w m where
  atOpen : w.db (names c.pfx c.spare).n0 = b.atOpen.map u64tob
  counter : w.db (names c.pfx c.spare).ns = (b.counter c.spare).map u64tob
  open_le : ∀ n, b.atOpen = some n → n ≤ m
  counter_le : ∀ n, b.counter c.spare = some n → n ≤ m
  bnext : w.tr.seq.next = b.next
  bleased : w.tr.seq.leased = b.leased
  idOf : ∀ k, w.db ((names c.pfx c.spare).nk ++ k) = (b.idOf k).map u64tob
  idOf_lt : ∀ k n, b.idOf k = some n → n < m
  keyOf : ∀ n, n < 2 ^ 64 → w.db ((names c.pfx c.spare).ni ++ u64tob n) = b.lookup c.spare n
  keyOf_lt : ∀ n k, b.keyOf n = some k → n < m
  bpending : w.pending = b.pending

theorem option_map_u64 {o : Option Nat} {n : Nat} (h : ∀ x, o = some x → x < 2 ^ 64) (hn : n < 2 ^ 64) : o.map u64tob = some (u64tob n) ↔ o = some n := by
  cases o with
  | none => simp
  | some x => simp only [Option.map_some, Option.some.injEq]; exact ⟨fun e => u64tob_inj (h x rfl) hn e, fun e => by rw [e]⟩

theorem counter_set {spare n : Nat} {b : Book} : (b.setCounter spare n).counter spare = some n := by
  unfold Book.setCounter Book.counter
  by_cases h : Split spare <;> simp [h]

/-- Writing the counter in use. -/
theorem Rel.set {c : Config} {w : World} {b : Book} {m x : Nat} (h : Rel c w b m) (hx : x ≤ m) :
    (∀ k, (w.db.set (names c.pfx c.spare).ns (u64tob x)) ((names c.pfx c.spare).nk ++ k) = ((b.setCounter c.spare x).idOf k).map u64tob) ∧
    (∀ n, n < 2 ^ 64 → (w.db.set (names c.pfx c.spare).ns (u64tob x)) ((names c.pfx c.spare).ni ++ u64tob n) = (b.setCounter c.spare x).lookup c.spare n) ∧
    (w.db.set (names c.pfx c.spare).ns (u64tob x)) (names c.pfx c.spare).n0 = (b.setCounter c.spare x).atOpen.map u64tob ∧
    (∀ n, (b.setCounter c.spare x).atOpen = some n → n ≤ m) := by
  have hN := names_ok c.pfx c.spare
  have e1 : (b.setCounter c.spare x).idOf = b.idOf := by unfold Book.setCounter; split <;> rfl
  have e2 : (b.setCounter c.spare x).keyOf = b.keyOf := by unfold Book.setCounter; split <;> rfl
  have e3 : ∀ n, (b.setCounter c.spare x).lookup c.spare n = b.lookup c.spare n := by intro n; unfold Book.lookup; rw [e1, e2]
  refine ⟨fun k => by rw [KV.set_ne _ _ (hN.k_ne_s k), e1, h.idOf], fun n hn => by rw [KV.set_ne _ _ (hN.i_ne_s n), e3, h.keyOf n hn], ?_, ?_⟩
  · by_cases hs : Split c.spare
    · rw [KV.set_ne _ _ (fun e => (names_split _ _).1 e hs), h.atOpen]
      unfold Book.setCounter; rw [if_pos hs]
    · rw [(names_split _ _).2 hs, KV.set_same]
      unfold Book.setCounter; rw [if_neg hs]; rfl
  · intro n hn
    unfold Book.setCounter at hn
    split at hn
    · exact h.open_le n hn
    · cases hn; exact hx

theorem setCounter_pending (spare n : Nat) (b : Book) : (b.setCounter spare n).pending = b.pending := by unfold Book.setCounter; split <;> rfl
theorem setCounter_keyOf (spare n : Nat) (b : Book) : (b.setCounter spare n).keyOf = b.keyOf := by unfold Book.setCounter; split <;> rfl
theorem setCounter_idOf (spare n : Nat) (b : Book) : (b.setCounter spare n).idOf = b.idOf := by unfold Book.setCounter; split <;> rfl
theorem setCounter_next (spare n : Nat) (b : Book) : (b.setCounter spare n).next = b.next := by unfold Book.setCounter; split <;> rfl

theorem bulk_eq {db : KV} {ni : Bytes} {spare : Nat} {b : Book} (h : ∀ n, n < 2 ^ 64 → db (ni ++ u64tob n) = b.lookup spare n) :
    ∀ ns : List Nat, (∀ n ∈ ns, n < 2 ^ 64) → Tr.bulkKeys db ni ns = b.bulk spare ns := by
  intro ns
  induction ns with
  | nil => intro _; rfl
  | cons n ns ih =>
    intro hn
    have ih := ih fun x hx => hn x (List.mem_cons_of_mem _ hx)
    simp only [Tr.bulkKeys, Book.bulk, h n (hn n List.mem_cons_self)]
    cases b.lookup spare n with
    | none => rfl
    | some k => simp only [ih]

theorem rel_step {c : Config} (hpos : 0 < c.lease) {w : World} {b : Book} {m m' : Nat} (hle : m + c.lease = m') (hb : m' < 2 ^ 56)
    (h : Rel c w b m) (op : Op) (hf : Fits op) :
    ∃ w', Tr.step c w op = some (w', (step c.spare c.lease b op).2) ∧ Rel c w' (step c.spare c.lease b op).1 m' := by
  have hN := names_ok c.pfx c.spare
  obtain ⟨w', o, hs, hst, -⟩ := stab_step hN rfl hpos hle hb h.toStabInv op
  have hs0 := hs
  have dec : ∀ {n}, n < m → n % 2 ^ 64 = n := fun hn => Nat.mod_eq_of_lt (by omega)
  have same : ∀ {p}, w' = w → o = p → ∃ w', Tr.step c w op = some (w', p) ∧ Rel c w' b m' := by
    rintro p rfl rfl
    exact ⟨w', hs, { hst with
      atOpen := h.atOpen, counter := h.counter, open_le := fun n hn => by have := h.open_le n hn; omega
      counter_le := fun n hn => by have := h.counter_le n hn; omega
      bnext := h.bnext, bleased := h.bleased, idOf := h.idOf, idOf_lt := fun k n hn => by have := h.idOf_lt k n hn; omega
      keyOf := h.keyOf, keyOf_lt := fun k n hn => by have := h.keyOf_lt k n hn; omega, bpending := h.bpending }⟩
  cases op with
  | begin t k =>
    simp only [Tr.step, h.keys, h.idOf] at hs
    cases hk : b.idOf k with
    | some n =>
      simp only [hk, Option.map_some, btou64_u64tob, dec (h.idOf_lt k n hk)] at hs
      cases hs
      simp only [step, hk]
      exact same rfl rfl
    | none =>
      simp only [hk, Option.map_none, Sequence.nextId] at hs
      simp only [step, hk]
      by_cases hl : w.tr.seq.next ≥ w.tr.seq.leased
      · have hl' : b.leased ≤ b.next := by rw [← h.bnext, ← h.bleased]; exact hl
        obtain ⟨num, hnum, hz, hv, hu⟩ := updateLease_of (db := w.db) (s := w.tr.seq) (m := m) (by omega) (by rw [h.seq]; exact h.vs)
        have he : num = (b.counter c.spare).getD 0 := by
          cases hc : b.counter c.spare with
          | none => rw [hz (by rw [h.seq, h.counter, hc]; rfl)]; rfl
          | some n =>
            have := h.counter_le n hc
            rw [hv n (by omega) (by rw [h.seq, h.counter, hc]; rfl)]; rfl
        simp only [hl, if_true, hu] at hs
        cases hs
        refine ⟨_, hs0, ?_⟩
        obtain ⟨r1, r2, r3, r4⟩ := Rel.set (x := num + c.lease) (m := m') ({ h with
          toStabInv := by
            have := h.toStabInv
            exact { this with
              val := fun k v h => (this.val k v h).imp fun _ h => ⟨by omega, h.2⟩
              vs := fun v h => (this.vs v h).imp fun _ h => ⟨by omega, h.2⟩
              v0 := fun v h => (this.v0 v h).imp fun _ h => ⟨by omega, h.2⟩
              next := by have := this.next; omega
              leased := by have := this.leased; omega
              pend := fun p h => by have := this.pend p h; omega }
          open_le := fun n hn => by have := h.open_le n hn; omega
          counter_le := fun n hn => by have := h.counter_le n hn; omega
          idOf_lt := fun k n hn => by have := h.idOf_lt k n hn; omega
          keyOf_lt := fun k n hn => by have := h.keyOf_lt k n hn; omega } : Rel c w b m') (by omega)
        have hbw := h.bw
        unfold Book.draw
        rw [if_pos hl']
        unfold Book.refill
        rw [← he]
        refine { hst with
          atOpen := ?_, counter := ?_, open_le := ?_, counter_le := ?_, bnext := rfl, bleased := ?_, idOf := ?_, idOf_lt := ?_, keyOf := ?_, keyOf_lt := ?_, bpending := ?_ }
        · simp only [h.seq, hbw]; exact r3
        · simp only [h.seq, hbw, KV.set_same]
          show _ = ((b.setCounter c.spare (num + c.lease)).counter c.spare).map u64tob
          rw [counter_set]; rfl
        · exact r4
        · intro n hn
          have : (b.setCounter c.spare (num + c.lease)).counter c.spare = some n := hn
          rw [counter_set] at this; cases this; omega
        · simp only [hbw]
        · simp only [h.seq, hbw]; exact r1
        · intro k n hn
          have : (b.setCounter c.spare (num + c.lease)).idOf k = some n := hn
          rw [setCounter_idOf] at this
          have := h.idOf_lt k n this; omega
        · simp only [h.seq, hbw]; exact r2
        · intro n k hn
          have : (b.setCounter c.spare (num + c.lease)).keyOf n = some k := hn
          rw [setCounter_keyOf] at this
          have := h.keyOf_lt n k this; omega
        · simp only [h.bpending]
      · have hl' : ¬ b.leased ≤ b.next := by rw [← h.bnext, ← h.bleased]; exact hl
        simp only [hl, if_false] at hs
        cases hs
        refine ⟨_, hs0, ?_⟩
        unfold Book.draw
        rw [if_neg hl']
        exact { hst with
          atOpen := h.atOpen, counter := h.counter, open_le := fun n hn => by have := h.open_le n hn; omega
          counter_le := fun n hn => by have := h.counter_le n hn; omega
          bnext := by simp only [h.bnext], bleased := h.bleased, idOf := h.idOf, idOf_lt := fun k n hn => by have := h.idOf_lt k n hn; omega
          keyOf := h.keyOf, keyOf_lt := fun k n hn => by have := h.keyOf_lt k n hn; omega
          bpending := by simp only [h.bpending, h.bnext] }
  | commit t sp =>
    simp only [Tr.step, h.keys, h.ids, h.bpending] at hs
    simp only [step]
    cases hp : b.pending.find? (fun p => p.tid = t) with
    | none =>
      simp only [hp] at hs ⊢
      cases hs
      exact same rfl rfl
    | some p =>
      have hpm : p ∈ w.pending := by rw [h.bpending]; exact List.mem_of_find?_eq_some hp
      have hpid := h.pend p hpm
      have hiff : (w.db ((names c.pfx c.spare).nk ++ p.key)).isSome = (b.idOf p.key).isSome := by rw [h.idOf]; simp
      simp only [hp, hiff] at hs ⊢
      by_cases hc : sp = true ∨ (b.idOf p.key).isSome = true
      · simp only [hc, if_true] at hs ⊢
        cases hs
        refine ⟨_, hs0, ?_⟩
        exact { hst with
          atOpen := h.atOpen, counter := h.counter, open_le := fun n hn => by have := h.open_le n hn; omega
          counter_le := fun n hn => by have := h.counter_le n hn; omega
          bnext := h.bnext, bleased := h.bleased, idOf := h.idOf, idOf_lt := fun k n hn => by have := h.idOf_lt k n hn; omega
          keyOf := h.keyOf, keyOf_lt := fun k n hn => by have := h.keyOf_lt k n hn; omega
          bpending := rfl }
      · simp only [hc, if_false] at hs ⊢
        cases hs
        refine ⟨_, hs0, ?_⟩
        have hki : ∀ k, (names c.pfx c.spare).nk ++ k ≠ (names c.pfx c.spare).ni ++ u64tob p.id := fun k => hN.k_ne_i k p.id (by omega)
        refine { hst with
          atOpen := ?_, counter := ?_, open_le := fun n hn => by have := h.open_le n hn; omega
          counter_le := fun n hn => by have := h.counter_le n hn; omega
          bnext := h.bnext, bleased := h.bleased, idOf := ?_, idOf_lt := ?_, keyOf := ?_, keyOf_lt := ?_, bpending := rfl }
        · dsimp only; rw [KV.set_ne _ _ (hN.i_ne_0 p.id).symm, KV.set_ne _ _ (hN.k_ne_0 p.key).symm]; exact h.atOpen
        · dsimp only; rw [KV.set_ne _ _ (hN.i_ne_s p.id).symm, KV.set_ne _ _ (hN.k_ne_s p.key).symm]; exact h.counter
        · intro k
          dsimp only
          rw [KV.set_ne _ _ (hki k)]
          by_cases e : k = p.key
          · subst e; simp [KV.set_same]
          · rw [KV.set_ne _ _ (fun e' => e (List.append_cancel_left e')), h.idOf]; simp [e]
        · intro k n hn
          by_cases e : k = p.key
          · simp only [e, if_true] at hn; cases hn; omega
          · simp only [e, if_false] at hn
            have := h.idOf_lt k n hn; omega
        · intro n hn
          dsimp only
          by_cases e : n = p.id
          · subst e; rw [KV.set_same]; simp [Book.lookup]
          · rw [KV.set_ne _ _ (fun e' => e (u64tob_inj hn (by omega) (List.append_cancel_left e')))]
            have hold := h.keyOf n hn
            unfold Book.lookup at hold ⊢
            simp only [e, if_false]
            by_cases hm : (names c.pfx c.spare).ni ++ u64tob n = (names c.pfx c.spare).nk ++ p.key
            · obtain ⟨h4, h5⟩ := (names_meet _ _ _ _).1 hm.symm
              have hno : b.keyOf n = none := by
                cases hkn : b.keyOf n with
                | none => rfl
                | some k' =>
                  have hlt := h.keyOf_lt n k' hkn
                  have hbyte : byteAt n 7 = 0 := by
                    apply UInt8.toNat_inj.1
                    rw [byteAt_toNat]
                    have : n / 256 ^ 7 = 0 := by apply Nat.div_eq_of_lt; omega
                    simp [this]
                  have : (u64tob n).head? = some (byteAt n 7) := rfl
                  rw [h5, hbyte] at this
                  simp at this
              rw [hm, KV.set_same]
              simp [hno, h4, h5]
            · rw [KV.set_ne _ _ hm, hold]
              cases hkn : b.keyOf n with
              | some k' => rfl
              | none =>
                by_cases h4 : 4 ≤ c.spare ∧ (u64tob n).head? = some 115
                · have : ¬ (u64tob n).tail = p.key := by
                    intro e'
                    refine hm ((names_meet _ _ _ _).2 ⟨h4.1, ?_⟩).symm
                    rw [← e']
                    obtain ⟨-, h5⟩ := h4
                    cases hx : u64tob n with
                    | nil => rw [hx] at h5; cases h5
                    | cons a as => rw [hx] at h5; cases h5; rfl
                  simp [h4, this]
                · simp [h4]
        · intro n k hn
          by_cases e : n = p.id
          · omega
          · simp only [e, if_false] at hn
            have := h.keyOf_lt n k hn; omega
  | find k =>
    simp only [Tr.step, h.keys, h.idOf] at hs
    simp only [step]
    cases hk : b.idOf k with
    | some n =>
      simp only [hk, Option.map_some, btou64_u64tob, dec (h.idOf_lt k n hk)] at hs ⊢
      cases hs
      exact same rfl rfl
    | none =>
      simp only [hk, Option.map_none] at hs ⊢
      cases hs
      exact same rfl rfl
  | lookup n =>
    simp only [Tr.step, h.ids, h.keyOf n hf] at hs
    simp only [step]
    cases hk : b.lookup c.spare n <;> (simp only [hk] at hs ⊢; cases hs; exact same rfl rfl)
  | bulk ns =>
    simp only [Tr.step, h.ids, bulk_eq h.keyOf ns hf] at hs
    simp only [step]
    cases hs
    exact same rfl rfl
  | close =>
    simp only [Tr.step] at hs
    simp only [step]
    cases hc : b.counter c.spare with
    | none =>
      have hr : w.tr.seq.release w.db = some (.keyNotFound, w.db, w.tr.seq) := by
        unfold Sequence.release; rw [h.seq, h.counter, hc]; rfl
      simp only [hr] at hs ⊢
      cases hs
      exact same rfl rfl
    | some n =>
      have hnm := h.counter_le n hc
      have hr := release_of (db := w.db) (s := w.tr.seq) (n := n) (by omega) (by rw [h.seq, h.counter, hc]; rfl)
      simp only [hr] at hs ⊢
      cases hs
      refine ⟨_, hs0, ?_⟩
      have hw : Rel c w b m' := { h with
          toStabInv := by
            have := h.toStabInv
            exact { this with
              val := fun k v h => (this.val k v h).imp fun _ h => ⟨by omega, h.2⟩
              vs := fun v h => (this.vs v h).imp fun _ h => ⟨by omega, h.2⟩
              v0 := fun v h => (this.v0 v h).imp fun _ h => ⟨by omega, h.2⟩
              next := by have := this.next; omega
              leased := by have := this.leased; omega
              pend := fun p h => by have := this.pend p h; omega }
          open_le := fun n hn => by have := h.open_le n hn; omega
          counter_le := fun n hn => by have := h.counter_le n hn; omega
          idOf_lt := fun k n hn => by have := h.idOf_lt k n hn; omega
          keyOf_lt := fun k n hn => by have := h.keyOf_lt k n hn; omega }
      by_cases hl : n = b.leased
      · have hl' : ¬ n ≠ w.tr.seq.leased := by rw [h.bleased]; simpa using hl
        rw [if_pos hl]
        simp only [if_neg hl', h.seq, h.bnext] at hst ⊢
        have hnx : b.next ≤ m' := by have := h.next; rw [h.bnext] at this; omega
        obtain ⟨r1, r2, r3, r4⟩ := hw.set (x := b.next) hnx
        refine { hst with
          atOpen := r3, counter := ?_, open_le := r4, counter_le := ?_, bnext := ?_, bleased := rfl, idOf := r1, idOf_lt := ?_, keyOf := r2, keyOf_lt := ?_, bpending := ?_ }
        · simp only [KV.set_same]
          show _ = ((b.setCounter c.spare b.next).counter c.spare).map u64tob
          rw [counter_set]; rfl
        · intro x hx
          have : (b.setCounter c.spare b.next).counter c.spare = some x := hx
          rw [counter_set] at this; cases this; exact hnx
        · show _ = (b.setCounter c.spare b.next).next
          rw [setCounter_next]
          try exact h.bnext
        · intro k n hn
          have : (b.setCounter c.spare b.next).idOf k = some n := hn
          rw [setCounter_idOf] at this
          exact hw.idOf_lt k n this
        · intro n k hn
          have : (b.setCounter c.spare b.next).keyOf n = some k := hn
          rw [setCounter_keyOf] at this
          exact hw.keyOf_lt n k this
        · show _ = (b.setCounter c.spare b.next).pending
          rw [setCounter_pending]; exact h.bpending
      · have hl' : n ≠ w.tr.seq.leased := by rw [h.bleased]; exact hl
        rw [if_neg hl]
        simp only [if_pos hl'] at hst ⊢
        exact { hst with
          atOpen := h.atOpen, counter := h.counter, open_le := hw.open_le, counter_le := hw.counter_le
          bnext := h.bnext, bleased := h.bnext, idOf := h.idOf, idOf_lt := hw.idOf_lt
          keyOf := h.keyOf, keyOf_lt := hw.keyOf_lt, bpending := h.bpending }
  | reopen =>
    obtain ⟨num, hnum, hz, hv, hu⟩ := updateLease_of (db := w.db)
      (s := { key := (names c.pfx c.spare).n0, next := 0, leased := 0, bandwidth := c.lease }) (m := m) (by omega) h.v0
    have he : num = b.atOpen.getD 0 := by
      cases hc : b.atOpen with
      | none => rw [hz (by rw [h.atOpen, hc]; rfl)]; rfl
      | some n =>
        have := h.open_le n hc
        rw [hv n (by omega) (by rw [h.atOpen, hc]; rfl)]; rfl
    simp only [Tr.step, Tr.new_eq, getSequence, hu] at hs
    cases hs
    simp only [step]
    refine ⟨_, hs0, ?_⟩
    unfold Book.opened
    rw [← he]
    have hlk : ∀ n, ({ b with atOpen := some (num + c.lease), next := num, leased := num + c.lease, pending := [] } : Book).lookup c.spare n = b.lookup c.spare n := fun n => rfl
    refine { hst with
      atOpen := ?_, counter := ?_, open_le := fun n hn => by cases hn; omega
      counter_le := ?_, bnext := rfl, bleased := rfl, idOf := ?_, idOf_lt := fun k n hn => by have := h.idOf_lt k n hn; omega
      keyOf := ?_, keyOf_lt := fun k n hn => by have := h.keyOf_lt k n hn; omega, bpending := rfl }
    · dsimp only; rw [KV.set_same]; rfl
    · dsimp only
      by_cases hsp : Split c.spare
      · rw [KV.set_ne _ _ (fun e => (names_split _ _).1 e.symm hsp), h.counter]
        unfold Book.counter; rw [if_pos hsp, if_pos hsp]
      · rw [← (names_split _ _).2 hsp, KV.set_same]
        unfold Book.counter; rw [if_neg hsp]; rfl
    · intro n hn
      unfold Book.counter at hn
      by_cases hsp : Split c.spare
      · rw [if_pos hsp] at hn
        have := h.counter_le n (by unfold Book.counter; rw [if_pos hsp]; exact hn)
        omega
      · rw [if_neg hsp] at hn; cases hn; omega
    · intro k; dsimp only; rw [KV.set_ne _ _ (hN.k_ne_0 k)]; exact h.idOf k
    · intro n hn
      dsimp only
      rw [KV.set_ne _ _ (hN.i_ne_0 n), hlk]; exact h.keyOf n hn

theorem rel_run {c : Config} (hpos : 0 < c.lease) (ops : List Op) : ∀ {w : World} {b : Book} {m : Nat}, m + ops.length * c.lease < 2 ^ 56 →
    Rel c w b m → (∀ op ∈ ops, Fits op) →
    ∃ w', Tr.run c w ops = some (w', (run c.spare c.lease b ops).2) ∧ Rel c w' (run c.spare c.lease b ops).1 (m + ops.length * c.lease) := by
  induction ops with
  | nil => intro w b m _ h _; exact ⟨w, rfl, by simpa [run] using h⟩
  | cons op ops ih =>
    intro w b m hb h hf
    have e : m + (op :: ops).length * c.lease = (m + c.lease) + ops.length * c.lease := by
      rw [List.length_cons, Nat.add_mul, Nat.one_mul]; omega
    obtain ⟨w1, h1, h2⟩ := rel_step hpos rfl (by have := Nat.zero_le (ops.length * c.lease); omega) h op (hf op List.mem_cons_self)
    obtain ⟨w2, h3, h4⟩ := ih (by omega) h2 fun x hx => hf x (List.mem_cons_of_mem _ hx)
    refine ⟨w2, by simp only [Tr.run, h1, h3, run], ?_⟩
    rw [e]; exact h4

end Verif.Ids
