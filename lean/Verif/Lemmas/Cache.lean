import Verif.Model.Cache
import Verif.Lemmas.Translate3
/-! Helper lemmas for the translation cache. -/
namespace Verif
open Tr Cache

namespace Tr

/-- `translateKey` is `begin` followed by an undisturbed `commit`. -/
theorem translateKey_eq (c : Config) (w : World) (hp : w.pending = []) (hki : ∀ v, w.db (w.tr.keys ++ k) = some v → ∃ n, btou64 v = some n)
    (hseq : ∀ n db seq, w.tr.seq.nextId w.db = some (n, db, seq) → w.db (w.tr.keys ++ k) = none → db (w.tr.keys ++ k) = none) :
    (translateKey w k).map (fun p => (p.1, p.2)) =
      match run c w [.begin 0 k, .commit 0 false] with
      | some (w', outs) => (outs.findSome? fun | .translated _ n => some n | _ => none).map fun n => (w', n)
      | none => none := by
  obtain ⟨db, tr, pending⟩ := w
  simp only at hp hki hseq
  subst hp
  simp only [translateKey, run, step]
  cases h : db (tr.keys ++ k) with
  | some v =>
    obtain ⟨n, hn⟩ := hki v h
    simp [hn]
  | none =>
    simp only
    cases hn : tr.seq.nextId db with
    | none => rfl
    | some p =>
      obtain ⟨n, db', seq⟩ := p
      have := hseq n db' seq hn h
      simp [this]

end Tr

namespace Cache

theorem step_run {c : Config} {w w' : World} {o : Out} {op : Op} (h : step c w op = some (w', o)) :
    run c w [op] = some (w', [o]) := by simp [run, h]

/-- One undisturbed translation keeps the dictionary invariant. -/
theorem translateKey_stab {c : Config} (hpos : 0 < c.lease) {w : World} {m : Nat} (hp : w.pending = [])
    (hb : m + 2 * c.lease < 2 ^ 56) (hi : StabInv (names c.pfx c.spare) c.lease w m) (k : Bytes) :
    ∃ w' n, translateKey w k = some (w', n) ∧ w'.pending = [] ∧
      StabInv (names c.pfx c.spare) c.lease w' (m + 2 * c.lease) ∧ n < 2 ^ 56 ∧
      w'.db ((names c.pfx c.spare).nk ++ k) = some (u64tob n) ∧
      (∀ k v, w.db ((names c.pfx c.spare).nk ++ k) = some v → w'.db ((names c.pfx c.spare).nk ++ k) = some v) ∧
      ∀ a v, w'.db ((names c.pfx c.spare).nk ++ a) = some v → a = k ∨ w.db ((names c.pfx c.spare).nk ++ a) = some v := by
  have hN := names_ok c.pfx c.spare
  obtain ⟨w2, os, hr, hi2, hrun⟩ := stab_run hN rfl hpos [.begin 0 k, .commit 0 false] (w := w) (m := m)
    (by simpa using hb) hi
  have hteq := translateKey_eq (k := k) c w hp
    (by
      intro v hv
      rw [hi.keys] at hv
      obtain ⟨n, hn, rfl⟩ := hi.val k v hv
      exact ⟨_, btou64_u64tob n⟩)
    (by
      intro n db seq hn hno
      simp only [Sequence.nextId] at hn
      split at hn
      · obtain ⟨num, -, -, -, hu⟩ := updateLease_of (db := w.db) (s := w.tr.seq) (m := m) (by omega)
          (by rw [hi.seq]; exact hi.vs)
        rw [hu] at hn
        simp only [Option.some.injEq, Prod.mk.injEq] at hn
        obtain ⟨-, rfl, -⟩ := hn
        rw [KV.set_ne]
        · exact hno
        · rw [hi.keys, hi.seq]; exact hN.k_ne_s k
      · cases hn; exact hno)
  rw [hr] at hteq
  have hk : w2.pending = [] ∧ (os = [.translated k ((findKey w2 k).getD 0), .failed] ∨
      os = [.started, .translated k ((findKey w2 k).getD 0)]) := by
    obtain ⟨db, tr, pending⟩ := w
    simp only at hp
    subst hp
    simp only [run, step] at hr
    cases h : db (tr.keys ++ k) with
    | some v =>
      obtain ⟨n, hn, rfl⟩ := hi.val k v (by have := hi.keys; simp only at this; rw [← this]; exact h)
      have hm : btou64 (u64tob n) = some n := by rw [btou64_u64tob, Nat.mod_eq_of_lt (by omega)]
      simp only [h, hm, List.find?_nil, Option.some.injEq, Prod.mk.injEq] at hr
      obtain ⟨rfl, rfl⟩ := hr
      refine ⟨rfl, Or.inl ?_⟩
      simp [findKey, h, hm]
    | none =>
      simp only [h] at hr
      cases hn : tr.seq.nextId db with
      | none => simp [hn] at hr
      | some p =>
        obtain ⟨n, db', seq⟩ := p
        have hno : db' (tr.keys ++ k) = none := by
          simp only [Sequence.nextId] at hn
          split at hn
          · obtain ⟨num, -, -, -, hu⟩ := updateLease_of (db := db) (s := tr.seq) (m := m) (by omega)
              (by have := hi.seq; simp only at this; rw [this]; exact hi.vs)
            rw [hu] at hn
            simp only [Option.some.injEq, Prod.mk.injEq] at hn
            obtain ⟨-, rfl, -⟩ := hn
            rw [KV.set_ne]
            · exact h
            · have h1 := hi.seq; have h2 := hi.keys; simp only at h1 h2
              rw [h1, h2]; exact hN.k_ne_s k
          · cases hn; exact h
        simp only [hn, hno, List.nil_append, List.find?_cons, decide_true, Option.isSome_none, Bool.false_eq_true,
          or_self, if_false, Option.some.injEq, Prod.mk.injEq] at hr
        obtain ⟨rfl, rfl⟩ := hr
        have hn56 : n < 2 ^ 56 := (hrun.translated k n (by simp)).2
        refine ⟨by simp, Or.inr ?_⟩
        have hki : tr.keys ++ k ≠ tr.ids ++ u64tob n := by
          have h1 := hi.ids; have h2 := hi.keys; simp only at h1 h2
          rw [h1, h2]; exact hN.k_ne_i k n hn56
        simp [findKey, KV.set_ne _ _ hki, KV.set_same, btou64_u64tob, Nat.mod_eq_of_lt (show n < 2 ^ 64 by omega)]
  have key : ∃ n, .translated k n ∈ os ∧ translateKey w k = some (w2, n) := by
    rcases hk.2 with h | h
    · refine ⟨(findKey w2 k).getD 0, by rw [h]; simp, ?_⟩
      simpa [h] using hteq
    · refine ⟨(findKey w2 k).getD 0, by rw [h]; simp, ?_⟩
      simpa [h] using hteq
  obtain ⟨n, hmem, ht⟩ := key
  obtain ⟨h1, h2⟩ := hrun.translated k n hmem
  refine ⟨w2, n, ht, hk.1, by simpa using hi2, h2, h1, hrun.mono, fun a v hv => ?_⟩
  rcases hrun.fresh a v hv with h | ⟨n', -, h⟩
  · exact .inr h
  · left
    rcases hk.2 with e | e <;> (rw [e] at h; simp at h; exact h.1)

/-- Every cached value is the dictionary's id of the keys of the history with that hash. -/
def Valid (hash : Bytes → Nat) (c : Config) (ks : List Bytes) (s : CWorld) : Prop :=
  ∀ k n, k ∈ ks → s.cache (hash k) = some n → n < 2 ^ 56 ∧ s.w.db ((names c.pfx c.spare).nk ++ k) = some (u64tob n)

theorem sim {hash : Bytes → Nat} {c : Config} (hpos : 0 < c.lease) (ks : List Bytes)
    (hinj : ∀ k ∈ ks, ∀ k' ∈ ks, hash k = hash k' → k = k') (ops : List COp) :
    ∀ {s t : CWorld} {m : Nat}, (∀ k ∈ keysOf ops, k ∈ ks) → s.w = t.w → (∀ h, t.cache h = none) →
      s.w.pending = [] → m + 2 * ops.length * c.lease < 2 ^ 56 → StabInv (names c.pfx c.spare) c.lease s.w m →
      Valid hash c ks s →
      ∃ outs, crun hash c s ops = some outs ∧ crun hash c t (uncached ops) = some outs ∧
        ∀ k n, .id k n ∈ outs → n < 2 ^ 56 := by
  induction ops with
  | nil => intro s t m _ _ _ _ _ _ _; exact ⟨[], rfl, rfl, by simp⟩
  | cons op ops ih =>
    intro s t m hks hw ht hp hb hi hv
    have hb' : m + 2 * c.lease + 2 * ops.length * c.lease < 2 ^ 56 := by
      have e : 2 * (ops.length + 1) * c.lease = 2 * c.lease + 2 * ops.length * c.lease := by
        rw [Nat.mul_add, Nat.add_mul, Nat.mul_one]; omega
      rw [List.length_cons, e] at hb; omega
    have hks' : ∀ k ∈ keysOf ops, k ∈ ks := by
      intro k hk
      apply hks
      simp only [keysOf, List.filterMap_cons] at hk ⊢
      split <;> simp [hk]
    have wk : StabInv (names c.pfx c.spare) c.lease s.w (m + 2 * c.lease) :=
      { hi with
        val := fun k v h => (hi.val k v h).imp fun _ h => ⟨by omega, h.2⟩
        vs := fun v h => (hi.vs v h).imp fun _ h => ⟨by omega, h.2⟩
        v0 := fun v h => (hi.v0 v h).imp fun _ h => ⟨by omega, h.2⟩
        next := by have := hi.next; omega
        leased := by have := hi.leased; omega
        pend := fun p h => by have := hi.pend p h; omega }
    obtain ⟨sw, sc⟩ := s
    obtain ⟨tw, tc⟩ := t
    simp only at hw ht hp hi wk
    subst hw
    have htc : tc = fun _ => none := funext ht
    subst htc
    cases op with
    | translate k keep =>
      have hkin : k ∈ ks := hks k (by simp [keysOf])
      obtain ⟨w', n, htk, hp', hi', hn, hdb, hmono, -⟩ := translateKey_stab hpos hp (by omega) hi k
      simp only [crun, cstep, uncached, List.map_cons]
      cases hc : sc (hash k) with
      | some v =>
        obtain ⟨hv1, hv2⟩ := hv k v hkin hc
        have hv2' : sw.db ((names c.pfx c.spare).nk ++ k) = some (u64tob v) := hv2
        have hsame : w' = sw ∧ n = v := by
          simp only [translateKey, hi.keys, hv2'] at htk
          rw [btou64_u64tob, Nat.mod_eq_of_lt (by omega)] at htk
          simp only [Option.some.injEq, Prod.mk.injEq] at htk
          exact ⟨htk.1.symm, htk.2.symm⟩
        obtain ⟨outs, h1, h2, h3⟩ := ih (s := ⟨sw, sc⟩) (t := ⟨sw, fun _ => none⟩) hks' rfl (fun _ => rfl) hp hb' wk hv
        refine ⟨.id k v :: outs, by simp [h1], ?_, ?_⟩
        · simp only [uncached] at h2
          simp [htk, hsame.1, hsame.2, h2]
        · intro k' n' hmem
          rcases List.mem_cons.1 hmem with h | h
          · cases h; exact hv1
          · exact h3 _ _ h
      | none =>
        have hv' : Valid hash c ks ⟨w', fun h => if keep ∧ h = hash k then some n else sc h⟩ := by
          intro k' n' hk' h
          simp only at h
          split at h
          · rename_i hc2
            have := hinj k' hk' k hkin hc2.2
            subst this
            cases h
            exact ⟨hn, hdb⟩
          · obtain ⟨a, b⟩ := hv k' n' hk' h
            exact ⟨a, hmono _ _ b⟩
        obtain ⟨outs, h1, h2, h3⟩ := ih (s := ⟨w', fun h => if keep ∧ h = hash k then some n else sc h⟩) (t := ⟨w', fun _ => none⟩) hks' rfl (fun _ => rfl) hp' hb' hi' hv'
        refine ⟨.id k n :: outs, by simp [htk, h1], ?_, ?_⟩
        · simp only [uncached] at h2
          simp [htk, h2]
        · intro k' n' hmem
          rcases List.mem_cons.1 hmem with h | h
          · cases h; exact hn
          · exact h3 _ _ h
    | evict drop =>
      have hv' : Valid hash c ks ⟨sw, fun h => if drop h then none else sc h⟩ := by
        intro k' n' hk' h
        simp only at h
        split at h
        · cases h
        · exact hv k' n' hk' h
      obtain ⟨outs, h1, h2, h3⟩ := ih (s := ⟨sw, fun h => if drop h then none else sc h⟩) (t := ⟨sw, fun _ => none⟩) hks' rfl (fun _ => rfl) hp hb' wk hv'
      refine ⟨.nothing :: outs, by simp [crun, cstep, h1], ?_, ?_⟩
      · simp only [uncached] at h2
        simp [crun, cstep, uncached, h2]
      · intro k' n' hmem; simp at hmem; exact h3 _ _ hmem
    | find k =>
      obtain ⟨outs, h1, h2, h3⟩ := ih (s := ⟨sw, sc⟩) (t := ⟨sw, fun _ => none⟩) hks' rfl (fun _ => rfl) hp hb' wk hv
      refine ⟨.found k (findKey sw k) :: outs, by simp [crun, cstep, h1], ?_, ?_⟩
      · simp only [uncached] at h2
        simp [crun, cstep, uncached, h2]
      · intro k' n' hmem; simp at hmem; exact h3 _ _ hmem
    | restart =>
      obtain ⟨w', o, hs, hi', hst⟩ := stab_step (names_ok c.pfx c.spare) rfl hpos rfl (show m + c.lease < 2 ^ 56 by omega) hi .reopen
      have hp' : w'.pending = [] := by
        simp only [step] at hs
        split at hs
        · cases hs
        · cases hs; rfl
      obtain ⟨outs, h1, h2, h3⟩ := ih (s := ⟨w', fun _ => none⟩) (t := ⟨w', fun _ => none⟩) (m := m + c.lease) hks' rfl (fun _ => rfl) hp'
        (by omega) hi' (by intro k n _ h; cases h)
      refine ⟨.nothing :: outs, by simp [crun, cstep, hs, h1], ?_, ?_⟩
      · simp only [uncached] at h2
        simp [crun, cstep, uncached, hs, h2]
      · intro k' n' hmem; simp at hmem; exact h3 _ _ hmem

end Cache

end Verif
