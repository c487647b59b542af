import Verif.Lemmas.Translate
/-! Helper lemmas on the dictionary: full invariant when the three names do not alias (`spare < 3`). -/
namespace Verif.Tr

structure FullInv (N : Names) (lease : Nat) (w : World) (m : Nat) : Prop extends StabInv N lease w m where
  store : w.db N.ns = some (u64tob w.tr.seq.leased)
  nl : w.tr.seq.next ≤ w.tr.seq.leased
  k2i : ∀ k n, n < 2 ^ 56 → w.db (N.nk ++ k) = some (u64tob n) →
    n < w.tr.seq.next ∧ w.db (N.ni ++ u64tob n) = some k
  i2k : ∀ n k, n < 2 ^ 64 → w.db (N.ni ++ u64tob n) = some k →
    n < w.tr.seq.next ∧ w.db (N.nk ++ k) = some (u64tob n)
  pnext : ∀ p ∈ w.pending, p.id < w.tr.seq.next ∧ w.db (N.ni ++ u64tob p.id) = none
  pdist : w.pending.Pairwise (fun p q => p.id ≠ q.id)

theorem names_noalias {pfx : Bytes} {spare : Nat} (h : spare < 3) :
    names pfx spare = ⟨pfx ++ sSeq, pfx ++ sSeq, pfx ++ sKeys, pfx ++ sIds⟩ := by simp [names, h]

/-- What the steps do to the id table. -/
structure FullStep (N : Names) (w w' : World) (o : Out) : Prop extends StabStep N w w' o where
  keyOf : ∀ n k, o = .keyOf n k → w.db (N.ni ++ u64tob n) = some k
  idMissing : ∀ n, o = .idMissing n → w.db (N.ni ++ u64tob n) = none
  bulk : ∀ ns ks ok, o = .bulk ns ks ok → (ks, ok) = bulkKeys w.db N.ni ns

theorem full_step {N : Names} (hN : NamesOK N) (h0 : N.n0 = N.ns)
    (hki : ∀ a n, N.nk ++ a ≠ N.ni ++ u64tob n)
    {c : Config} (hnew : names c.pfx c.spare = N) (hpos : 0 < c.lease)
    {w : World} {m m' : Nat} (hle : m + c.lease = m') (hb : m' < 2 ^ 56) (hi : FullInv N c.lease w m) (op : Op) :
    ∃ w' o, step c w op = some (w', o) ∧ FullInv N c.lease w' m' ∧ FullStep N w w' o := by
  obtain ⟨w', o, hs, si, ss⟩ := stab_step hN hnew hpos hle hb hi.toStabInv op
  have hL : w.tr.seq.leased < 2 ^ 64 := by have := hi.leased; omega
  have hnk : ∀ n, n < w.tr.seq.next → n < 2 ^ 56 := by have := hi.next; intro n hn; omega
  refine ⟨w', o, hs, ?_⟩
  suffices hx : FullInv N c.lease w' m' ∧
      (∀ n k, o = .keyOf n k → w.db (N.ni ++ u64tob n) = some k) ∧
      (∀ n, o = .idMissing n → w.db (N.ni ++ u64tob n) = none) ∧
      (∀ ns ks ok, o = .bulk ns ks ok → (ks, ok) = bulkKeys w.db N.ni ns) from
    ⟨hx.1, { ss with keyOf := hx.2.1, idMissing := hx.2.2.1, bulk := hx.2.2.2 }⟩
  have keep : w' = w → FullInv N c.lease w' m' := by
    rintro rfl
    exact { si with store := hi.store, nl := hi.nl, k2i := hi.k2i, i2k := hi.i2k, pnext := hi.pnext, pdist := hi.pdist }
  cases op with
  | begin t key =>
    simp only [step, hi.keys] at hs
    cases hk : w.db (N.nk ++ key) with
    | some v =>
      rw [hk] at hs
      obtain ⟨n, hn, rfl⟩ := hi.val _ _ hk
      simp only [btou64_u64tob] at hs
      cases hs
      refine ⟨keep rfl, ?_, ?_, ?_⟩ <;> intros <;> contradiction
    | none =>
      rw [hk] at hs
      simp only [Sequence.nextId] at hs
      by_cases hl : w.tr.seq.next ≥ w.tr.seq.leased
      · obtain ⟨num, hnum, -, hnum2, hu⟩ := updateLease_of (db := w.db) (s := w.tr.seq) (m := m) (by omega)
          (by rw [hi.seq]; exact hi.vs)
        have hnl : num = w.tr.seq.leased := hnum2 _ hL (by rw [hi.seq]; exact hi.store)
        have hnx : num = w.tr.seq.next := by have := hi.nl; omega
        simp only [hl, if_true, hu] at hs
        rw [hi.seq] at hs
        cases hs
        refine ⟨?_, ?_, ?_, ?_⟩
        · refine { si with store := ?_, nl := ?_, k2i := ?_, i2k := ?_, pnext := ?_, pdist := ?_ }
          · simp only [KV.set_same]
          · show num + 1 ≤ num + w.tr.seq.bandwidth
            rw [hi.bw]; omega
          · intro k n hn h
            simp only [KV.set_ne _ _ (hN.k_ne_s k)] at h
            obtain ⟨a, b⟩ := hi.k2i k n hn h
            refine ⟨by show n < num + 1; omega, ?_⟩
            simp only [KV.set_ne _ _ (hN.i_ne_s n)]; exact b
          · intro n k hn h
            simp only [KV.set_ne _ _ (hN.i_ne_s n)] at h
            obtain ⟨a, b⟩ := hi.i2k n k hn h
            refine ⟨by show n < num + 1; omega, ?_⟩
            simp only [KV.set_ne _ _ (hN.k_ne_s k)]; exact b
          · intro p hp
            simp only [KV.set_ne _ _ (hN.i_ne_s p.id)]
            rcases List.mem_append.1 hp with hp | hp
            · obtain ⟨a, b⟩ := hi.pnext p hp
              exact ⟨by show p.id < num + 1; omega, b⟩
            · rw [List.mem_singleton.1 hp]
              refine ⟨by show num < num + 1; omega, ?_⟩
              cases hd : w.db (N.ni ++ u64tob num) with
              | none => rfl
              | some k =>
                have := (hi.i2k num k (by omega) hd).1
                omega
          · refine List.pairwise_append.2 ⟨hi.pdist, by simp, ?_⟩
            intro p hp q hq
            rw [List.mem_singleton.1 hq]
            have := (hi.pnext p hp).1
            show p.id ≠ num
            omega
        all_goals intros; contradiction
      · simp only [hl, if_false] at hs
        cases hs
        refine ⟨?_, ?_, ?_, ?_⟩
        · refine { si with store := ?_, nl := ?_, k2i := ?_, i2k := ?_, pnext := ?_, pdist := ?_ }
          · exact hi.store
          · show w.tr.seq.next + 1 ≤ w.tr.seq.leased
            omega
          · intro k n hn h
            obtain ⟨a, b⟩ := hi.k2i k n hn h
            exact ⟨by show n < w.tr.seq.next + 1; omega, b⟩
          · intro n k hn h
            obtain ⟨a, b⟩ := hi.i2k n k hn h
            exact ⟨by show n < w.tr.seq.next + 1; omega, b⟩
          · intro p hp
            rcases List.mem_append.1 hp with hp | hp
            · obtain ⟨a, b⟩ := hi.pnext p hp
              exact ⟨by show p.id < w.tr.seq.next + 1; omega, b⟩
            · rw [List.mem_singleton.1 hp]
              refine ⟨by show w.tr.seq.next < w.tr.seq.next + 1; omega, ?_⟩
              show w.db (N.ni ++ u64tob w.tr.seq.next) = none
              cases hd : w.db (N.ni ++ u64tob w.tr.seq.next) with
              | none => rfl
              | some k =>
                have := (hi.i2k _ k (by have := hi.nl; omega) hd).1
                omega
          · refine List.pairwise_append.2 ⟨hi.pdist, by simp, ?_⟩
            intro p hp q hq
            rw [List.mem_singleton.1 hq]
            have := (hi.pnext p hp).1
            show p.id ≠ w.tr.seq.next
            omega
        all_goals intros; contradiction
  | commit t sp =>
    simp only [step, hi.keys, hi.ids] at hs
    cases hf : w.pending.find? (fun p => p.tid = t) with
    | none =>
      rw [hf] at hs
      cases hs
      refine ⟨keep rfl, ?_, ?_, ?_⟩ <;> intros <;> contradiction
    | some p =>
      rw [hf] at hs
      have hp : p ∈ w.pending := List.mem_of_find?_eq_some hf
      have hpt : p.tid = t := by simpa using List.find?_some hf
      by_cases hc : sp = true ∨ (w.db (N.nk ++ p.key)).isSome
      · simp only [hc, if_true] at hs
        cases hs
        refine ⟨?_, ?_, ?_, ?_⟩
        · exact { si with
            store := hi.store, nl := hi.nl, k2i := hi.k2i, i2k := hi.i2k
            pnext := fun q hq => hi.pnext q (List.mem_filter.1 hq).1
            pdist := hi.pdist.filter _ }
        all_goals intros; contradiction
      · simp only [hc, if_false] at hs
        cases hs
        have hnone : w.db (N.nk ++ p.key) = none := by
          simp only [not_or, Option.isSome_iff_ne_none, Decidable.not_not] at hc; exact hc.2
        obtain ⟨hpn, hpi⟩ := hi.pnext p hp
        have hp56 := hnk _ hpn
        refine ⟨?_, ?_, ?_, ?_⟩
        · refine { si with store := ?_, nl := hi.nl, k2i := ?_, i2k := ?_, pnext := ?_, pdist := hi.pdist.filter _ }
          · simp only [KV.set_ne _ _ (Ne.symm (hN.i_ne_s p.id)), KV.set_ne _ _ (Ne.symm (hN.k_ne_s p.key))]
            exact hi.store
          · intro k n hn h
            simp only [KV.set_ne _ _ (hki k p.id)] at h
            by_cases he : k = p.key
            · subst he
              rw [KV.set_same, Option.some.injEq] at h
              have := u64tob_inj (by omega) (by omega) h
              subst this
              exact ⟨hpn, by simp only [KV.set_same]⟩
            · rw [KV.set_ne _ _ (fun e => he (List.append_cancel_left e))] at h
              obtain ⟨a, b⟩ := hi.k2i k n hn h
              refine ⟨a, ?_⟩
              by_cases hid : n = p.id
              · subst hid; rw [hpi] at b; cases b
              · simp only [KV.set_ne _ _ (fun e => hid (u64tob_ids_inj (by omega) (by omega) e)),
                  KV.set_ne _ _ (Ne.symm (hki p.key n))]
                exact b
          · intro n k hn h
            by_cases hid : n = p.id
            · subst hid
              simp only [KV.set_same, Option.some.injEq] at h
              subst h
              refine ⟨hpn, ?_⟩
              simp only [KV.set_ne _ _ (hki p.key p.id), KV.set_same]
            · simp only [KV.set_ne _ _ (fun e => hid (u64tob_ids_inj hn (by omega) e)),
                KV.set_ne _ _ (Ne.symm (hki p.key n))] at h
              obtain ⟨a, b⟩ := hi.i2k n k hn h
              refine ⟨a, ?_⟩
              simp only [KV.set_ne _ _ (hki k p.id)]
              rw [KV.set_ne]
              · exact b
              · intro e; rw [e, hnone] at b; cases b
          · intro q hq
            obtain ⟨hq1, hq2⟩ := List.mem_filter.1 hq
            obtain ⟨a, b⟩ := hi.pnext q hq1
            refine ⟨a, ?_⟩
            have hne : q.id ≠ p.id := by
              have hq2' : q.tid ≠ t := by simpa using hq2
              have hqp : q ≠ p := fun e => hq2' (e ▸ hpt)
              intro hid
              have key : ∀ (l : List Pending), l.Pairwise (fun p q => p.id ≠ q.id) → p ∈ l → q ∈ l → q = p := by
                intro l hl
                induction hl with
                | nil => intro h; cases h
                | cons h1 h2 ih =>
                  intro hp hq
                  rcases List.mem_cons.1 hp with rfl | hp' <;> rcases List.mem_cons.1 hq with rfl | hq'
                  · rfl
                  · exact absurd hid.symm (h1 _ hq')
                  · exact absurd hid (h1 _ hp')
                  · exact ih hp' hq'
              exact hqp (key _ hi.pdist hp hq1)
            have hq56 := hnk _ a
            simp only [KV.set_ne _ _ (fun e => hne (u64tob_ids_inj (by omega) (by omega) e)),
                KV.set_ne _ _ (Ne.symm (hki p.key q.id))]
            exact b
        all_goals intros; contradiction
  | find key =>
    simp only [step, hi.keys] at hs
    cases hk : w.db (N.nk ++ key) with
    | none =>
      rw [hk] at hs; cases hs
      refine ⟨keep rfl, ?_, ?_, ?_⟩ <;> intros <;> contradiction
    | some v =>
      rw [hk] at hs
      obtain ⟨n, hn, rfl⟩ := hi.val _ _ hk
      simp only [btou64_u64tob] at hs
      cases hs
      refine ⟨keep rfl, ?_, ?_, ?_⟩ <;> intros <;> contradiction
  | lookup id =>
    simp only [step, hi.ids] at hs
    cases hk : w.db (N.ni ++ u64tob id) with
    | none =>
      rw [hk] at hs; cases hs
      refine ⟨keep rfl, ?_, ?_, ?_⟩
      · intros; contradiction
      · intro n h; cases h; exact hk
      · intros; contradiction
    | some k =>
      rw [hk] at hs; cases hs
      refine ⟨keep rfl, ?_, ?_, ?_⟩
      · intro n h e; cases e; exact hk
      · intros; contradiction
      · intros; contradiction
  | bulk ids =>
    simp only [step, hi.ids] at hs
    cases hs
    refine ⟨keep rfl, ?_, ?_, ?_⟩
    · intros; contradiction
    · intros; contradiction
    · intro ns ks ok e
      cases e; rfl
  | close =>
    simp only [step] at hs
    rw [release_of (n := w.tr.seq.leased) hL (by rw [hi.seq]; exact hi.store)] at hs
    simp only [ne_eq, not_true_eq_false, if_false, hi.seq] at hs
    cases hs
    refine ⟨?_, ?_, ?_, ?_⟩
    · refine { si with store := ?_, nl := ?_, k2i := ?_, i2k := ?_, pnext := ?_, pdist := hi.pdist }
      · simp only [KV.set_same]
      · exact Nat.le_refl _
      · intro k n hn h
        simp only [KV.set_ne _ _ (hN.k_ne_s k)] at h
        simp only [KV.set_ne _ _ (hN.i_ne_s n)]
        exact hi.k2i k n hn h
      · intro n k hn h
        simp only [KV.set_ne _ _ (hN.i_ne_s n)] at h
        simp only [KV.set_ne _ _ (hN.k_ne_s k)]
        exact hi.i2k n k hn h
      · intro p hp
        simp only [KV.set_ne _ _ (hN.i_ne_s p.id)]
        exact hi.pnext p hp
    all_goals intros; contradiction
  | reopen =>
    simp only [step, new_eq, hnew, getSequence] at hs
    obtain ⟨num, hnum, -, hnum2, hu⟩ := updateLease_of (db := w.db)
      (s := { key := N.n0, next := 0, leased := 0, bandwidth := c.lease }) (m := m) (by omega) hi.v0
    have hnl : num = w.tr.seq.leased := hnum2 _ hL (by show w.db N.n0 = _; rw [h0]; exact hi.store)
    have hnx := hi.nl
    simp only [hu] at hs
    cases hs
    refine ⟨?_, ?_, ?_, ?_⟩
    · refine { si with store := ?_, nl := ?_, k2i := ?_, i2k := ?_, pnext := ?_, pdist := ?_ }
      · simp only [h0, KV.set_same]
      · show num ≤ num + c.lease
        omega
      · intro k n hn h
        simp only [h0, KV.set_ne _ _ (hN.k_ne_s k)] at h
        simp only [h0, KV.set_ne _ _ (hN.i_ne_s n)]
        obtain ⟨a, b⟩ := hi.k2i k n hn h
        exact ⟨by omega, b⟩
      · intro n k hn h
        simp only [h0, KV.set_ne _ _ (hN.i_ne_s n)] at h
        simp only [h0, KV.set_ne _ _ (hN.k_ne_s k)]
        obtain ⟨a, b⟩ := hi.i2k n k hn h
        exact ⟨by omega, b⟩
      · intro p hp; cases hp
      · exact .nil
    all_goals intros; contradiction

end Verif.Tr
