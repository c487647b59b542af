import Verif.Lemmas.Translate2
/-! Helper lemmas on dictionary histories. -/
namespace Verif.Tr

theorem run_append (c : Config) (w : World) (a b : List Op) :
    run c w (a ++ b) =
      match run c w a with
      | none => none
      | some (w1, o1) =>
        match run c w1 b with
        | none => none
        | some (w2, o2) => some (w2, o1 ++ o2) := by
  induction a generalizing w with
  | nil =>
    simp only [List.nil_append, run]
    cases h : run c w b with
    | none => rfl
    | some p => rfl
  | cons op a ih =>
    simp only [List.cons_append, run]
    cases hs : step c w op with
    | none => rfl
    | some p =>
      obtain ⟨w1, o⟩ := p
      simp only [ih]
      cases ha : run c w1 a with
      | none => rfl
      | some p =>
        obtain ⟨w2, os⟩ := p
        simp only
        cases hb : run c w2 b with
        | none => rfl
        | some p => rfl

/-- Effect of a whole run on the key table. -/
structure StabRun (N : Names) (w w' : World) (os : List Out) : Prop where
  mono : ∀ k v, w.db (N.nk ++ k) = some v → w'.db (N.nk ++ k) = some v
  translated : ∀ k n, .translated k n ∈ os → w'.db (N.nk ++ k) = some (u64tob n) ∧ n < 2 ^ 56
  found : ∀ k n, .found k n ∈ os → w'.db (N.nk ++ k) = some (u64tob n) ∧ n < 2 ^ 56
  fresh : ∀ k v, w'.db (N.nk ++ k) = some v →
    w.db (N.nk ++ k) = some v ∨ ∃ n, v = u64tob n ∧ .translated k n ∈ os

theorem StabRun.cons {N : Names} {w w1 w2 : World} {o : Out} {os : List Out}
    (h1 : StabStep N w w1 o) (h2 : StabRun N w1 w2 os) : StabRun N w w2 (o :: os) where
  mono k v h := h2.mono k v (h1.mono k v h)
  translated k n h := by
    rcases List.mem_cons.1 h with h | h
    · have := h1.translated k n h.symm; exact ⟨h2.mono _ _ this.1, this.2⟩
    · exact h2.translated k n h
  found k n h := by
    rcases List.mem_cons.1 h with h | h
    · have := h1.found k n h.symm; exact ⟨h2.mono _ _ (h1.mono _ _ this.1), this.2⟩
    · exact h2.found k n h
  fresh k v h := by
    rcases h2.fresh k v h with h | ⟨n, hn, hm⟩
    · rcases h1.fresh k v h with h | ⟨n, hn, hm⟩
      · exact Or.inl h
      · exact Or.inr ⟨n, hn, by simp [hm]⟩
    · exact Or.inr ⟨n, hn, by simp [hm]⟩

theorem stab_run {N : Names} (hN : NamesOK N) {c : Config} (hnew : names c.pfx c.spare = N) (hpos : 0 < c.lease)
    (ops : List Op) : ∀ {w : World} {m : Nat}, m + ops.length * c.lease < 2 ^ 56 → StabInv N c.lease w m →
    ∃ w' os, run c w ops = some (w', os) ∧ StabInv N c.lease w' (m + ops.length * c.lease) ∧ StabRun N w w' os := by
  induction ops with
  | nil =>
    intro w m _ hi
    refine ⟨w, [], rfl, by simpa using hi, ?_⟩
    constructor
    · intros; assumption
    · intro k n h; cases h
    · intro k n h; cases h
    · intro k v h; exact Or.inl h
  | cons op ops ih =>
    intro w m hb hi
    rw [List.length_cons, Nat.add_mul, Nat.one_mul] at hb
    obtain ⟨w1, o, hs, hi1, hst⟩ := stab_step hN hnew hpos rfl (by omega) hi op
    obtain ⟨w2, os, hr, hi2, hrn⟩ := ih (w := w1) (m := m + c.lease) (by omega) hi1
    refine ⟨w2, o :: os, by simp [run, hs, hr], ?_, StabRun.cons hst hrn⟩
    rw [List.length_cons, Nat.add_mul, Nat.one_mul]
    have e : m + (ops.length * c.lease + c.lease) = m + c.lease + ops.length * c.lease := by omega
    rw [e]; exact hi2

theorem full_run {N : Names} (hN : NamesOK N) (h0 : N.n0 = N.ns) (hki : ∀ a n, N.nk ++ a ≠ N.ni ++ u64tob n)
    {c : Config} (hnew : names c.pfx c.spare = N) (hpos : 0 < c.lease)
    (ops : List Op) : ∀ {w : World} {m : Nat}, m + ops.length * c.lease < 2 ^ 56 → FullInv N c.lease w m →
    ∃ w' os, run c w ops = some (w', os) ∧ FullInv N c.lease w' (m + ops.length * c.lease) ∧ StabRun N w w' os := by
  induction ops with
  | nil =>
    intro w m _ hi
    refine ⟨w, [], rfl, by simpa using hi, ?_⟩
    constructor
    · intros; assumption
    · intro k n h; cases h
    · intro k n h; cases h
    · intro k v h; exact Or.inl h
  | cons op ops ih =>
    intro w m hb hi
    rw [List.length_cons, Nat.add_mul, Nat.one_mul] at hb
    obtain ⟨w1, o, hs, hi1, hst⟩ := full_step hN h0 hki hnew hpos rfl (by omega) hi op
    obtain ⟨w2, os, hr, hi2, hrn⟩ := ih (w := w1) (m := m + c.lease) (by omega) hi1
    refine ⟨w2, o :: os, by simp [run, hs, hr], ?_, StabRun.cons hst.toStabStep hrn⟩
    rw [List.length_cons, Nat.add_mul, Nat.one_mul]
    have e : m + (ops.length * c.lease + c.lease) = m + c.lease + ops.length * c.lease := by omega
    rw [e]; exact hi2

/-- `db` holds nothing under the dictionary's namespace. -/
def Fresh (pfx : Bytes) (db : KV) : Prop := ∀ s, db (pfx ++ s) = none

theorem names_prefix (pfx : Bytes) (spare : Nat) :
    (∃ s, (names pfx spare).n0 = pfx ++ s) ∧ (∃ s, (names pfx spare).ns = pfx ++ s) ∧
    (∃ s, (names pfx spare).nk = pfx ++ s) ∧ (∃ s, (names pfx spare).ni = pfx ++ s) := by
  unfold names
  split
  · exact ⟨⟨_, rfl⟩, ⟨_, rfl⟩, ⟨_, rfl⟩, ⟨_, rfl⟩⟩
  · split <;> exact ⟨⟨_, rfl⟩, ⟨_, rfl⟩, ⟨_, rfl⟩, ⟨_, rfl⟩⟩

/-- State right after the first opening. -/
theorem init_eq (c : Config) {db : KV} (hf : Fresh c.pfx db) :
    init c db = some
      { db := db.set (names c.pfx c.spare).n0 (u64tob c.lease),
        tr := { seq := { key := (names c.pfx c.spare).ns, next := 0, leased := c.lease, bandwidth := c.lease },
                keys := (names c.pfx c.spare).nk, ids := (names c.pfx c.spare).ni },
        pending := [] } := by
  obtain ⟨⟨s, hs⟩, -⟩ := names_prefix c.pfx c.spare
  have hn : db (names c.pfx c.spare).n0 = none := by rw [hs]; exact hf s
  simp [init, new_eq, getSequence, Sequence.updateLease, hn]

theorem init_stab (c : Config) {db : KV} (hf : Fresh c.pfx db) {w : World} (h : init c db = some w) :
    StabInv (names c.pfx c.spare) c.lease w c.lease ∧ (∀ k, w.db ((names c.pfx c.spare).nk ++ k) = none) := by
  rw [init_eq c hf] at h
  cases h
  have hN := names_ok c.pfx c.spare
  obtain ⟨⟨s0, hs0⟩, ⟨ss, hss⟩, ⟨sk, hsk⟩, ⟨si, hsi⟩⟩ := names_prefix c.pfx c.spare
  have hk : ∀ k, db ((names c.pfx c.spare).nk ++ k) = none := by
    intro k; rw [hsk, List.append_assoc]; exact hf _
  have hs : db (names c.pfx c.spare).ns = none := by rw [hss]; exact hf _
  refine ⟨?_, ?_⟩
  · constructor
    · rfl
    · rfl
    · rfl
    · rfl
    · intro k v h
      simp only [KV.set_ne _ _ (hN.k_ne_0 k), hk] at h
      cases h
    · intro v h
      by_cases he : (names c.pfx c.spare).ns = (names c.pfx c.spare).n0
      · simp only [he, KV.set_same, Option.some.injEq] at h
        exact ⟨c.lease, Nat.le_refl _, h.symm⟩
      · simp only [KV.set_ne _ _ he, hs] at h
        cases h
    · intro v h
      simp only [KV.set_same, Option.some.injEq] at h
      exact ⟨c.lease, Nat.le_refl _, h.symm⟩
    · exact Nat.zero_le _
    · exact Nat.le_refl _
    · intro p hp; cases hp
  · intro k
    simp only [KV.set_ne _ _ (hN.k_ne_0 k), hk]

theorem init_full (c : Config) (hc : c.spare < 3) {db : KV} (hf : Fresh c.pfx db) {w : World} (h : init c db = some w) :
    FullInv (names c.pfx c.spare) c.lease w c.lease := by
  obtain ⟨hst, hnone⟩ := init_stab c hf h
  rw [init_eq c hf] at h
  cases h
  have hN := names_ok c.pfx c.spare
  obtain ⟨⟨s0, hs0⟩, ⟨ss, hss⟩, ⟨sk, hsk⟩, ⟨si, hsi⟩⟩ := names_prefix c.pfx c.spare
  have h0 : (names c.pfx c.spare).n0 = (names c.pfx c.spare).ns := by rw [names_noalias hc]
  have hi : ∀ n, db ((names c.pfx c.spare).ni ++ u64tob n) = none := by
    intro k; rw [hsi, List.append_assoc]; exact hf _
  refine { hst with store := ?_, nl := Nat.zero_le _, k2i := ?_, i2k := ?_, pnext := ?_, pdist := .nil }
  · simp only [← h0, KV.set_same]
  · intro k n _ h
    rw [hnone k] at h; cases h
  · intro n k _ h
    simp only [KV.set_ne _ _ (hN.i_ne_0 n), hi] at h
    cases h
  · intro p hp; cases hp

/-- The history consisting of translating `u64tob 0, …, u64tob (n-1)` one after the other. -/
def transOps (n : Nat) : List Op := (List.range n).flatMap fun i => [.begin i (u64tob i), .commit i false]

theorem transOps_succ (n : Nat) : transOps (n + 1) = transOps n ++ [.begin n (u64tob n), .commit n false] := by
  simp [transOps, List.range_succ]

/-- With aliased names, `i ≤ lease` translations of new keys return `0 … i-1` and leave the lease key unset. -/
theorem alias_run (c : Config) (hN : NamesOK (names c.pfx c.spare)) (hne : (names c.pfx c.spare).ns ≠ (names c.pfx c.spare).n0)
    (hL : c.lease < 2 ^ 56) (i : Nat) : i ≤ c.lease →
    ∃ w os, history c (transOps i) = some (w, os) ∧
      (∀ j, j < i → .translated (u64tob j) j ∈ os) ∧
      w.tr = { seq := { key := (names c.pfx c.spare).ns, next := i, leased := c.lease, bandwidth := c.lease },
               keys := (names c.pfx c.spare).nk, ids := (names c.pfx c.spare).ni } ∧
      w.db (names c.pfx c.spare).ns = none ∧ w.pending = [] ∧
      (∀ j, i ≤ j → j < 2 ^ 56 → w.db ((names c.pfx c.spare).nk ++ u64tob j) = none) := by
  have hf : Fresh c.pfx KV.empty := fun _ => rfl
  induction i with
  | zero =>
    intro _
    simp only [history, init_eq c hf, transOps, List.range_zero, List.flatMap_nil, run]
    refine ⟨_, _, rfl, ?_, rfl, ?_, rfl, ?_⟩
    · intro j hj; omega
    · simp only [KV.set_ne _ _ hne]; rfl
    · intro j _ _
      simp only [KV.set_ne _ _ (hN.k_ne_0 _)]; rfl
  | succ i ih =>
    intro hi
    obtain ⟨w, os, hr, htr, hw, hs, hp, hk⟩ := ih (by omega)
    have hi56 : i < 2 ^ 56 := by omega
    obtain ⟨db, tr, pending⟩ := w
    simp only at hw hs hp hk
    subst hw hp
    have hsome := hk i (Nat.le_refl i) hi56
    simp only [history, init_eq c hf] at hr ⊢
    rw [transOps_succ, run_append, hr]
    have hlt : ¬ (i ≥ c.lease) := by omega
    simp only [run, step, hsome, Sequence.nextId, hlt, if_false, List.nil_append, List.find?_cons, decide_true]
    refine ⟨_, _, rfl, ?_, rfl, ?_, ?_, ?_⟩
    · intro j hj
      by_cases he : j = i
      · subst he; simp
      · exact List.mem_append.2 (Or.inl (htr j (by omega)))
    · simp only [KV.set_ne _ _ (Ne.symm (hN.i_ne_s i)), KV.set_ne _ _ (Ne.symm (hN.k_ne_s _))]
      exact hs
    · simp
    · intro j hj hj56
      have hji : j ≠ i := by omega
      simp only [KV.set_ne _ _ (hN.k_ne_i _ i hi56),
        KV.set_ne _ _ (fun e => hji (u64tob_inj (by omega) (by omega) (List.append_cancel_left e)))]
      exact hk j (by omega) hj56

/-- With aliased names, the first key after the lease gets id 0 again. -/
theorem alias_dup (c : Config) (hs : 3 ≤ c.spare) (hpos : 0 < c.lease) (hL : c.lease < 2 ^ 56) :
    ∃ w os, history c (transOps (c.lease + 1)) = some (w, os) ∧
      .translated (u64tob 0) 0 ∈ os ∧ .translated (u64tob c.lease) 0 ∈ os ∧
      step c w (.lookup 0) = some (w, .keyOf 0 (u64tob c.lease)) := by
  have hN := names_ok c.pfx c.spare
  have hne : (names c.pfx c.spare).ns ≠ (names c.pfx c.spare).n0 := by
    have : ¬ c.spare < 3 := by omega
    unfold names
    rw [if_neg this]
    split <;> simp [sSeq, sIds]
  obtain ⟨w, os, hr, htr, hw, hns, hp, hk⟩ := alias_run c hN hne hL c.lease (Nat.le_refl _)
  have hf : Fresh c.pfx KV.empty := fun _ => rfl
  obtain ⟨db, tr, pending⟩ := w
  simp only at hw hns hp hk
  subst hw hp
  have hsome := hk c.lease (Nat.le_refl _) hL
  simp only [history, init_eq c hf] at hr ⊢
  rw [transOps_succ, run_append, hr]
  have hge : c.lease ≥ c.lease := Nat.le_refl _
  simp only [run, step, hsome, Sequence.nextId, hge, if_true, Sequence.updateLease, hns, List.nil_append,
    List.find?_cons, decide_true, KV.set_ne _ _ (hN.k_ne_s _), Option.isSome_none, Bool.false_eq_true, or_self, if_false]
  refine ⟨_, _, rfl, ?_, ?_, ?_⟩
  · exact List.mem_append.2 (Or.inl (htr 0 hpos))
  · simp
  · simp only [KV.set_same]

end Verif.Tr
