import Verif.Spec.Layout
import Verif.Props.Shared
import Verif.Props.Translate
namespace Verif

theorem be64_u64tob {n : Nat} (h : n < 2 ^ 64) : Be64 n (u64tob n) := by
  refine ⟨rfl, ?_⟩
  have hb : ∀ i, (byteAt n i).toNat = n / 256 ^ i % 256 := fun i => byteAt_toNat n i
  simp only [u64tob, List.foldl_cons, List.foldl_nil, hb]
  have e0 : n / 256 ^ 0 = n := by simp
  have e1 : n / 256 ^ 1 = n / 256 := by simp
  have e2 : n / 256 ^ 2 = n / 256 / 256 := by rw [Nat.div_div_eq_div_mul]
  have e3 : n / 256 ^ 3 = n / 256 / 256 / 256 := by rw [Nat.div_div_eq_div_mul, Nat.div_div_eq_div_mul]
  have e4 : n / 256 ^ 4 = n / 256 / 256 / 256 / 256 := by simp only [Nat.div_div_eq_div_mul]
  have e5 : n / 256 ^ 5 = n / 256 / 256 / 256 / 256 / 256 := by simp only [Nat.div_div_eq_div_mul]
  have e6 : n / 256 ^ 6 = n / 256 / 256 / 256 / 256 / 256 / 256 := by simp only [Nat.div_div_eq_div_mul]
  have e7 : n / 256 ^ 7 = n / 256 / 256 / 256 / 256 / 256 / 256 / 256 := by simp only [Nat.div_div_eq_div_mul]
  rw [e0, e1, e2, e3, e4, e5, e6, e7]
  omega

theorem be64_iff {n : Nat} (h : n < 2 ^ 64) (b : Bytes) : Be64 n b ↔ b = u64tob n := by
  constructor
  · rintro ⟨hl, hv⟩
    match b, hl with
    | [b7, b6, b5, b4, b3, b2, b1, b0], _ =>
      have hb : ∀ (i : Nat) (c : UInt8), c.toNat = n / 256 ^ i % 256 → c = byteAt n i := by
        intro i c hc; apply UInt8.toNat_inj.1; rw [byteAt_toNat, hc]
      simp only [List.foldl_cons, List.foldl_nil] at hv
      have h0 := b0.toNat_lt; have h1 := b1.toNat_lt; have h2 := b2.toNat_lt; have h3 := b3.toNat_lt
      have h4 := b4.toNat_lt; have h5 := b5.toNat_lt; have h6 := b6.toNat_lt; have h7 := b7.toNat_lt
      unfold u64tob
      rw [← hb 7 b7 (by omega), ← hb 6 b6 (by omega), ← hb 5 b5 (by omega), ← hb 4 b4 (by omega), ← hb 3 b3 (by omega),
        ← hb 2 b2 (by omega), ← hb 1 b1 (by omega), ← hb 0 b0 (by omega)]
  · rintro rfl; exact be64_u64tob h

/-- Some number is written there. -/
theorem be64_some (n : Nat) : ∃ m, Be64 m (u64tob n) := ⟨_, rfl, rfl⟩

namespace Tr

/-- What one step writes. -/
structure Writes (N : Names) (w w' : World) (o : Out) : Prop where
  only : ∀ x v, w'.db x = some v → w.db x = some v ∨ ((x = N.n0 ∨ x = N.ns) ∧ ∃ n, v = u64tob n) ∨
    ∃ k n, o = .translated k n ∧ (x = N.nk ++ k ∧ v = u64tob n ∨ x = N.ni ++ u64tob n ∧ v = k)
  keep : ∀ x, w.db x ≠ none → w'.db x ≠ none
  both : (∀ k n, n < 2 ^ 56 → w.db (N.nk ++ k) = some (u64tob n) → w.db (N.ni ++ u64tob n) ≠ none) →
    ∀ k n, n < 2 ^ 56 → w'.db (N.nk ++ k) = some (u64tob n) → w'.db (N.ni ++ u64tob n) ≠ none

theorem Writes.same {N : Names} {w w' : World} {o : Out} (h : w'.db = w.db) : Writes N w w' o where
  only _ _ hv := .inl (h ▸ hv)
  keep _ hx := h ▸ hx
  both hh := h ▸ hh

theorem Writes.counter {N : Names} (hN : NamesOK N) {w w' : World} {o : Out} {x : Bytes} {n : Nat} (hx : x = N.n0 ∨ x = N.ns)
    (h : w'.db = w.db.set x (u64tob n)) : Writes N w w' o where
  only y v hv := by
    rw [h] at hv
    by_cases e : y = x
    · subst e
      rw [KV.set_same] at hv
      exact .inr (.inl ⟨hx, n, (Option.some.inj hv).symm⟩)
    · rw [KV.set_ne _ _ e] at hv; exact .inl hv
  keep y hy := by
    rw [h]
    by_cases e : y = x
    · subst e; rw [KV.set_same]; exact fun h => (nomatch h)
    · rw [KV.set_ne _ _ e]; exact hy
  both hh k m hm hk := by
    rw [h] at hk ⊢
    have e1 : N.nk ++ k ≠ x := by
      rcases hx with rfl | rfl
      · exact hN.k_ne_0 k
      · exact hN.k_ne_s k
    have e2 : N.ni ++ u64tob m ≠ x := by
      rcases hx with rfl | rfl
      · exact hN.i_ne_0 m
      · exact hN.i_ne_s m
    rw [KV.set_ne _ _ e1] at hk
    rw [KV.set_ne _ _ e2]
    exact hh k m hm hk

theorem updateLease_db {db db' : KV} {s s' : Sequence} (h : s.updateLease db = some (db', s')) : ∃ n, db' = db.set s.key (u64tob n) := by
  unfold Sequence.updateLease at h
  split at h
  · cases h; exact ⟨_, rfl⟩
  · split at h
    · cases h
    · cases h; exact ⟨_, rfl⟩

theorem writes_step {N : Names} (hN : NamesOK N) {c : Config} (hnew : names c.pfx c.spare = N) {w w' : World} {m : Nat} {op : Op} {o : Out}
    (hb : m < 2 ^ 56) (hi : StabInv N c.lease w m) (h : step c w op = some (w', o)) : Writes N w w' o := by
  cases op with
  | begin t key =>
    simp only [step] at h
    split at h
    · split at h
      · cases h
      · cases h; exact .same rfl
    · split at h
      · cases h
      · rename_i n db seq he
        cases h
        unfold Sequence.nextId at he
        split at he
        · split at he
          · cases he
          · rename_i hu
            cases he
            obtain ⟨n, hn⟩ := updateLease_db hu
            rw [hi.seq] at hn
            exact .counter hN (.inr rfl) hn
        · cases he; exact .same rfl
  | commit t sp =>
    simp only [step, hi.keys, hi.ids] at h
    split at h
    · cases h; exact .same rfl
    · rename_i p hp
      have hpm := hi.pend p (List.mem_of_find?_eq_some hp)
      by_cases hc : sp = true ∨ (w.db (N.nk ++ p.key)).isSome = true
      · rw [if_pos hc] at h; cases h; exact .same rfl
      · rw [if_neg hc] at h
        cases h
        have hki : ∀ k, N.nk ++ k ≠ N.ni ++ u64tob p.id := fun k => hN.k_ne_i k p.id (by omega)
        refine ⟨?_, ?_, ?_⟩
        · intro x v hv
          simp only at hv
          by_cases e1 : x = N.ni ++ u64tob p.id
          · subst e1
            rw [KV.set_same] at hv
            exact .inr (.inr ⟨p.key, p.id, rfl, .inr ⟨rfl, (Option.some.inj hv).symm⟩⟩)
          · rw [KV.set_ne _ _ e1] at hv
            by_cases e2 : x = N.nk ++ p.key
            · subst e2
              rw [KV.set_same] at hv
              exact .inr (.inr ⟨p.key, p.id, rfl, .inl ⟨rfl, (Option.some.inj hv).symm⟩⟩)
            · rw [KV.set_ne _ _ e2] at hv; exact .inl hv
        · intro x hx
          simp only
          by_cases e1 : x = N.ni ++ u64tob p.id
          · subst e1; rw [KV.set_same]; exact fun h => (nomatch h)
          · rw [KV.set_ne _ _ e1]
            by_cases e2 : x = N.nk ++ p.key
            · subst e2; rw [KV.set_same]; exact fun h => (nomatch h)
            · rw [KV.set_ne _ _ e2]; exact hx
        · intro hh k n hn hk
          simp only at hk ⊢
          rw [KV.set_ne _ _ (hki k)] at hk
          by_cases e1 : N.ni ++ u64tob n = N.ni ++ u64tob p.id
          · rw [e1, KV.set_same]; exact fun h => (nomatch h)
          · rw [KV.set_ne _ _ e1]
            rw [KV.set_ne _ _ (fun e => hN.k_ne_i p.key n hn e.symm)]
            by_cases e2 : N.nk ++ k = N.nk ++ p.key
            · rw [e2, KV.set_same] at hk
              exact absurd (congrArg (N.ni ++ ·) (Option.some.inj hk)).symm e1
            · rw [KV.set_ne _ _ e2] at hk
              exact hh k n hn hk
  | find key =>
    simp only [step] at h
    split at h
    · cases h; exact .same rfl
    · split at h
      · cases h
      · cases h; exact .same rfl
  | lookup id =>
    simp only [step] at h
    split at h <;> cases h <;> exact .same rfl
  | bulk ids => cases h; exact .same rfl
  | close =>
    simp only [step] at h
    split at h
    · cases h
    · rename_i r db seq he
      cases h
      unfold Sequence.release at he
      split at he
      · cases he; exact .same rfl
      · split at he
        · cases he
        · split at he
          · cases he; exact .same rfl
          · cases he; exact .counter hN (.inr hi.seq) rfl
  | reopen =>
    simp only [step, new_eq, hnew] at h
    split at h
    · cases h
    · rename_i db tr he
      split at he
      · cases he
      · rename_i hg
        cases he; cases h
        obtain ⟨n, hn⟩ := updateLease_db hg
        exact .counter hN (.inl rfl) hn

/-- What a run writes. -/
theorem writes_run {N : Names} (hN : NamesOK N) {c : Config} (hnew : names c.pfx c.spare = N) (hpos : 0 < c.lease) :
    ∀ (ops : List Op) {w w' : World} {os : List Out} {m : Nat}, m + ops.length * c.lease < 2 ^ 56 → StabInv N c.lease w m → run c w ops = some (w', os) →
      (∀ k n, n < 2 ^ 56 → w.db (N.nk ++ k) = some (u64tob n) → w.db (N.ni ++ u64tob n) ≠ none) →
      (∀ x v, w'.db x = some v → w.db x = some v ∨ ((x = N.n0 ∨ x = N.ns) ∧ ∃ n, v = u64tob n) ∨
        ∃ k n, .translated k n ∈ os ∧ (x = N.nk ++ k ∧ v = u64tob n ∨ x = N.ni ++ u64tob n ∧ v = k)) ∧
      (∀ k n, n < 2 ^ 56 → w'.db (N.nk ++ k) = some (u64tob n) → w'.db (N.ni ++ u64tob n) ≠ none) ∧ ∀ x, w.db x ≠ none → w'.db x ≠ none := by
  intro ops
  induction ops with
  | nil => intro w w' os m _ _ h hk; cases h; exact ⟨fun x v h => .inl h, hk, fun _ h => h⟩
  | cons op ops ih =>
    intro w w' os m hb hi h hk
    rw [List.length_cons, Nat.add_mul, Nat.one_mul] at hb
    obtain ⟨w1, o, hs, hi1, -⟩ := stab_step hN hnew hpos rfl (by omega) hi op
    have hw := writes_step hN hnew (by omega) hi hs
    simp only [run, hs] at h
    cases hr : run c w1 ops with
    | none => rw [hr] at h; cases h
    | some r =>
      obtain ⟨w2, os2⟩ := r
      rw [hr] at h
      cases h
      obtain ⟨h1, h2, h3⟩ := ih (m := m + c.lease) (by omega) hi1 hr (hw.both hk)
      refine ⟨fun x v hv => ?_, h2, fun x hx => h3 x (hw.keep x hx)⟩
      rcases h1 x v hv with h | h | ⟨k, n, h, h'⟩
      · rcases hw.only x v h with h | h | ⟨k, n, rfl, h'⟩
        · exact .inl h
        · exact .inr (.inl h)
        · exact .inr (.inr ⟨k, n, by simp, h'⟩)
      · exact .inr (.inl h)
      · exact .inr (.inr ⟨k, n, by simp [h], h'⟩)

end Tr
end Verif
