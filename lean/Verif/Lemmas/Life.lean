import Verif.Lemmas.Cache
/-! Helper lemmas on the dictionary: invariant for every capacity of the slice given to `New`, as long as the sequence does not
have to renew a lease under an aliased key. -/
namespace Verif.Tr

structure LifeInv (N : Names) (lease : Nat) (w : World) : Prop where
  keys : w.tr.keys = N.nk
  ids : w.tr.ids = N.ni
  seq : w.tr.seq.key = N.ns
  bw : w.tr.seq.bandwidth = lease
  store : w.db N.n0 = some (u64tob w.tr.seq.leased)
  unset : N.ns ≠ N.n0 → w.db N.ns = none
  nl : w.tr.seq.next ≤ w.tr.seq.leased
  small : w.tr.seq.leased + lease < 2 ^ 56
  val : ∀ k v, w.db (N.nk ++ k) = some v → ∃ n, n < w.tr.seq.next ∧ v = u64tob n ∧ w.db (N.ni ++ u64tob n) = some k
  i2k : ∀ n k, n < 2 ^ 56 → w.db (N.ni ++ u64tob n) = some k → n < w.tr.seq.next ∧ w.db (N.nk ++ k) = some (u64tob n)
  pnext : ∀ p ∈ w.pending, p.id < w.tr.seq.next ∧ w.db (N.ni ++ u64tob p.id) = none
  pdist : w.pending.Pairwise (fun p q => p.id ≠ q.id)

theorem LifeInv.stab {N : Names} {lease : Nat} {w : World} (h : LifeInv N lease w) : StabInv N lease w w.tr.seq.leased where
  keys := h.keys
  ids := h.ids
  seq := h.seq
  bw := h.bw
  val k v hv := by
    obtain ⟨n, h1, h2, -⟩ := h.val k v hv
    exact ⟨n, by have := h.nl; omega, h2⟩
  vs v hv := by
    by_cases e : N.ns = N.n0
    · rw [e, h.store] at hv; cases hv; exact ⟨_, Nat.le_refl _, rfl⟩
    · rw [h.unset e] at hv; cases hv
  v0 v hv := by rw [h.store] at hv; cases hv; exact ⟨_, Nat.le_refl _, rfl⟩
  next := h.nl
  leased := Nat.le_refl _
  pend p hp := by have := (h.pnext p hp).1; have := h.nl; omega

/-- The operation does not need a new lease under an aliased key, and ids do not run out. -/
def Room (N : Names) (lease : Nat) (w : World) : Op → Prop
  | .begin _ key => (w.db (w.tr.keys ++ key)).isSome ∨ w.tr.seq.next < w.tr.seq.leased ∨ (N.ns = N.n0 ∧ w.tr.seq.leased + 2 * lease < 2 ^ 56)
  | .reopen => w.tr.seq.leased + 2 * lease < 2 ^ 56
  | _ => True

theorem life_step {N : Names} (hN : NamesOK N) {c : Config} (hnew : names c.pfx c.spare = N) (hpos : 0 < c.lease)
    {w : World} (hi : LifeInv N c.lease w) (op : Op) (hroom : Room N c.lease w op) :
    ∃ w' o, step c w op = some (w', o) ∧ LifeInv N c.lease w' ∧ FullStep N w w' o := by
  have hsm := hi.small
  have hnl := hi.nl
  obtain ⟨w', o, hs, si, ss⟩ := stab_step hN hnew hpos rfl hsm hi.stab op
  have hL : w.tr.seq.leased < 2 ^ 64 := by omega
  have hnk : ∀ n, n < w.tr.seq.next → n < 2 ^ 56 := by intro n hn; omega
  refine ⟨w', o, hs, ?_⟩
  suffices hx : LifeInv N c.lease w' ∧
      (∀ n k, o = .keyOf n k → w.db (N.ni ++ u64tob n) = some k) ∧
      (∀ n, o = .idMissing n → w.db (N.ni ++ u64tob n) = none) ∧
      (∀ ns ks ok, o = .bulk ns ks ok → (ks, ok) = bulkKeys w.db N.ni ns) from
    ⟨hx.1, { ss with keyOf := hx.2.1, idMissing := hx.2.2.1, bulk := hx.2.2.2 }⟩
  have keep : w' = w → LifeInv N c.lease w' := by rintro rfl; exact hi
  cases op with
  | begin t key =>
    simp only [step, hi.keys] at hs
    cases hk : w.db (N.nk ++ key) with
    | some v =>
      rw [hk] at hs
      obtain ⟨n, hn, rfl, -⟩ := hi.val _ _ hk
      simp only [btou64_u64tob] at hs
      cases hs
      refine ⟨keep rfl, ?_, ?_, ?_⟩ <;> intros <;> contradiction
    | none =>
      rw [hk] at hs
      simp only [Room, hi.keys, hk, Option.isSome_none, Bool.false_eq_true, false_or] at hroom
      simp only [Sequence.nextId] at hs
      by_cases hl : w.tr.seq.next ≥ w.tr.seq.leased
      · have hr : N.ns = N.n0 ∧ w.tr.seq.leased + 2 * c.lease < 2 ^ 56 := by
          rcases hroom with h | h
          · omega
          · exact h
        obtain ⟨num, hnum, -, hnum2, hu⟩ := updateLease_of (db := w.db) (s := w.tr.seq) (m := w.tr.seq.leased) (by omega)
          (by rw [hi.seq]; exact hi.stab.vs)
        have hnl : num = w.tr.seq.leased := hnum2 _ hL (by rw [hi.seq, hr.1]; exact hi.store)
        simp only [hl, if_true, hu] at hs
        rw [hi.seq] at hs
        cases hs
        refine ⟨?_, ?_, ?_, ?_⟩
        · refine { si with store := ?_, unset := fun e => absurd hr.1 e, nl := ?_, small := ?_, val := ?_, i2k := ?_, pnext := ?_, pdist := ?_ }
          · simp only [hr.1, KV.set_same]
          · show num + 1 ≤ num + w.tr.seq.bandwidth
            rw [hi.bw]; omega
          · show num + w.tr.seq.bandwidth + c.lease < 2 ^ 56
            rw [hi.bw]; omega
          · intro k v h
            simp only [KV.set_ne _ _ (hN.k_ne_s k)] at h
            obtain ⟨n, a, b, d⟩ := hi.val k v h
            refine ⟨n, by show n < num + 1; omega, b, ?_⟩
            simp only [KV.set_ne _ _ (hN.i_ne_s n)]; exact d
          · intro n k hn h
            simp only [KV.set_ne _ _ (hN.i_ne_s n)] at h
            obtain ⟨a, b⟩ := hi.i2k n k hn h
            refine ⟨by show n < num + 1; omega, ?_⟩
            simp only [KV.set_ne _ _ (hN.k_ne_s k)]; exact b
          · intro p hp
            simp only [KV.set_ne _ _ (hN.i_ne_s p.id)]
            rcases List.mem_append.1 hp with hp | hp
            · obtain ⟨a, b⟩ := hi.pnext p hp
              exact ⟨by show p.id < num + 1; omega, b⟩
            · rw [List.mem_singleton.1 hp]
              refine ⟨by show num < num + 1; omega, ?_⟩
              cases hd : w.db (N.ni ++ u64tob num) with
              | none => rfl
              | some k =>
                have := (hi.i2k num k (by omega) hd).1
                omega
          · refine List.pairwise_append.2 ⟨hi.pdist, by simp, ?_⟩
            intro p hp q hq
            rw [List.mem_singleton.1 hq]
            have := (hi.pnext p hp).1
            show p.id ≠ num
            omega
        all_goals intros; contradiction
      · simp only [hl, if_false] at hs
        cases hs
        refine ⟨?_, ?_, ?_, ?_⟩
        · refine { si with store := hi.store, unset := hi.unset, nl := ?_, small := hi.small, val := ?_, i2k := ?_, pnext := ?_, pdist := ?_ }
          · show w.tr.seq.next + 1 ≤ w.tr.seq.leased
            omega
          · intro k v h
            obtain ⟨n, a, b, d⟩ := hi.val k v h
            exact ⟨n, by show n < w.tr.seq.next + 1; omega, b, d⟩
          · intro n k hn h
            obtain ⟨a, b⟩ := hi.i2k n k hn h
            exact ⟨by show n < w.tr.seq.next + 1; omega, b⟩
          · intro p hp
            rcases List.mem_append.1 hp with hp | hp
            · obtain ⟨a, b⟩ := hi.pnext p hp
              exact ⟨by show p.id < w.tr.seq.next + 1; omega, b⟩
            · rw [List.mem_singleton.1 hp]
              refine ⟨by show w.tr.seq.next < w.tr.seq.next + 1; omega, ?_⟩
              show w.db (N.ni ++ u64tob w.tr.seq.next) = none
              cases hd : w.db (N.ni ++ u64tob w.tr.seq.next) with
              | none => rfl
              | some k =>
                have := (hi.i2k _ k (by omega) hd).1
                omega
          · refine List.pairwise_append.2 ⟨hi.pdist, by simp, ?_⟩
            intro p hp q hq
            rw [List.mem_singleton.1 hq]
            have := (hi.pnext p hp).1
            show p.id ≠ w.tr.seq.next
            omega
        all_goals intros; contradiction
  | commit t sp =>
    simp only [step, hi.keys, hi.ids] at hs
    cases hf : w.pending.find? (fun p => p.tid = t) with
    | none =>
      rw [hf] at hs
      cases hs
      refine ⟨keep rfl, ?_, ?_, ?_⟩ <;> intros <;> contradiction
    | some p =>
      rw [hf] at hs
      have hp : p ∈ w.pending := List.mem_of_find?_eq_some hf
      have hpt : p.tid = t := by simpa using List.find?_some hf
      by_cases hc : sp = true ∨ (w.db (N.nk ++ p.key)).isSome
      · simp only [hc, if_true] at hs
        cases hs
        refine ⟨?_, ?_, ?_, ?_⟩
        · exact { hi with
            pnext := fun q hq => hi.pnext q (List.mem_filter.1 hq).1
            pdist := hi.pdist.filter _ }
        all_goals intros; contradiction
      · simp only [hc, if_false] at hs
        cases hs
        have hnone : w.db (N.nk ++ p.key) = none := by
          simp only [not_or, Option.isSome_iff_ne_none, Decidable.not_not] at hc; exact hc.2
        obtain ⟨hpn, hpi⟩ := hi.pnext p hp
        have hp56 := hnk _ hpn
        have hki : ∀ a n, n < 2 ^ 56 → N.nk ++ a ≠ N.ni ++ u64tob n := hN.k_ne_i
        refine ⟨?_, ?_, ?_, ?_⟩
        · refine { si with store := ?_, unset := ?_, nl := hi.nl, small := hi.small, val := ?_, i2k := ?_, pnext := ?_, pdist := hi.pdist.filter _ }
          · simp only [KV.set_ne _ _ (Ne.symm (hN.i_ne_0 p.id)), KV.set_ne _ _ (Ne.symm (hN.k_ne_0 p.key))]
            exact hi.store
          · intro e
            simp only [KV.set_ne _ _ (Ne.symm (hN.i_ne_s p.id)), KV.set_ne _ _ (Ne.symm (hN.k_ne_s p.key))]
            exact hi.unset e
          · intro k v h
            simp only [KV.set_ne _ _ (hki k p.id hp56)] at h
            by_cases he : k = p.key
            · subst he
              rw [KV.set_same, Option.some.injEq] at h
              exact ⟨p.id, hpn, h.symm, by simp only [KV.set_same]⟩
            · rw [KV.set_ne _ _ (fun e => he (List.append_cancel_left e))] at h
              obtain ⟨n, a, b, d⟩ := hi.val k v h
              refine ⟨n, a, b, ?_⟩
              have hn56 := hnk n a
              by_cases hid : n = p.id
              · subst hid; rw [hpi] at d; cases d
              · simp only [KV.set_ne _ _ (fun e => hid (u64tob_ids_inj (by omega) (by omega) e)),
                  KV.set_ne _ _ (Ne.symm (hki p.key n hn56))]
                exact d
          · intro n k hn h
            by_cases hid : n = p.id
            · subst hid
              simp only [KV.set_same, Option.some.injEq] at h
              subst h
              refine ⟨hpn, ?_⟩
              simp only [KV.set_ne _ _ (hki p.key p.id hp56), KV.set_same]
            · simp only [KV.set_ne _ _ (fun e => hid (u64tob_ids_inj (by omega) (by omega) e)),
                KV.set_ne _ _ (Ne.symm (hki p.key n hn))] at h
              obtain ⟨a, b⟩ := hi.i2k n k hn h
              refine ⟨a, ?_⟩
              simp only [KV.set_ne _ _ (hki k p.id hp56)]
              rw [KV.set_ne]
              · exact b
              · intro e; rw [e, hnone] at b; cases b
          · intro q hq
            obtain ⟨hq1, hq2⟩ := List.mem_filter.1 hq
            obtain ⟨a, b⟩ := hi.pnext q hq1
            refine ⟨a, ?_⟩
            have hne : q.id ≠ p.id := by
              have hq2' : q.tid ≠ t := by simpa using hq2
              have hqp : q ≠ p := fun e => hq2' (e ▸ hpt)
              intro hid
              have key : ∀ (l : List Pending), l.Pairwise (fun p q => p.id ≠ q.id) → p ∈ l → q ∈ l → q = p := by
                intro l hl
                induction hl with
                | nil => intro h; cases h
                | cons h1 h2 ih =>
                  intro hp hq
                  rcases List.mem_cons.1 hp with rfl | hp' <;> rcases List.mem_cons.1 hq with rfl | hq'
                  · rfl
                  · exact absurd hid.symm (h1 _ hq')
                  · exact absurd hid (h1 _ hp')
                  · exact ih hp' hq'
              exact hqp (key _ hi.pdist hp hq1)
            have hq56 := hnk _ a
            simp only [KV.set_ne _ _ (fun e => hne (u64tob_ids_inj (by omega) (by omega) e)),
                KV.set_ne _ _ (Ne.symm (hki p.key q.id hq56))]
            exact b
        all_goals intros; contradiction
  | find key =>
    simp only [step, hi.keys] at hs
    cases hk : w.db (N.nk ++ key) with
    | none =>
      rw [hk] at hs; cases hs
      refine ⟨keep rfl, ?_, ?_, ?_⟩ <;> intros <;> contradiction
    | some v =>
      rw [hk] at hs
      obtain ⟨n, hn, rfl, -⟩ := hi.val _ _ hk
      simp only [btou64_u64tob] at hs
      cases hs
      refine ⟨keep rfl, ?_, ?_, ?_⟩ <;> intros <;> contradiction
  | lookup id =>
    simp only [step, hi.ids] at hs
    cases hk : w.db (N.ni ++ u64tob id) with
    | none =>
      rw [hk] at hs; cases hs
      refine ⟨keep rfl, ?_, ?_, ?_⟩
      · intros; contradiction
      · intro n h; cases h; exact hk
      · intros; contradiction
    | some k =>
      rw [hk] at hs; cases hs
      refine ⟨keep rfl, ?_, ?_, ?_⟩
      · intro n h e; cases e; exact hk
      · intros; contradiction
      · intros; contradiction
  | bulk ids =>
    simp only [step, hi.ids] at hs
    cases hs
    refine ⟨keep rfl, ?_, ?_, ?_⟩
    · intros; contradiction
    · intros; contradiction
    · intro ns ks ok e
      cases e; rfl
  | close =>
    simp only [step] at hs
    by_cases e0 : N.ns = N.n0
    · rw [release_of (n := w.tr.seq.leased) hL (by rw [hi.seq, e0]; exact hi.store)] at hs
      simp only [ne_eq, not_true_eq_false, if_false, hi.seq] at hs
      cases hs
      refine ⟨?_, ?_, ?_, ?_⟩
      · refine { si with store := ?_, unset := fun e => absurd e0 e, nl := Nat.le_refl _, small := ?_, val := ?_, i2k := ?_, pnext := ?_, pdist := hi.pdist }
        · simp only [e0, KV.set_same]
        · show w.tr.seq.next + c.lease < 2 ^ 56
          omega
        · intro k v h
          simp only [KV.set_ne _ _ (hN.k_ne_s k)] at h
          obtain ⟨n, a, b, d⟩ := hi.val k v h
          exact ⟨n, a, b, by simp only [KV.set_ne _ _ (hN.i_ne_s n)]; exact d⟩
        · intro n k hn h
          simp only [KV.set_ne _ _ (hN.i_ne_s n)] at h
          simp only [KV.set_ne _ _ (hN.k_ne_s k)]
          exact hi.i2k n k hn h
        · intro p hp
          simp only [KV.set_ne _ _ (hN.i_ne_s p.id)]
          exact hi.pnext p hp
      all_goals intros; contradiction
    · have hr : w.tr.seq.release w.db = some (.keyNotFound, w.db, w.tr.seq) := by
        unfold Sequence.release; rw [hi.seq, hi.unset e0]
      rw [hr] at hs
      cases hs
      refine ⟨keep rfl, ?_, ?_, ?_⟩ <;> intros <;> contradiction
  | reopen =>
    simp only [Room] at hroom
    simp only [step, new_eq, hnew, getSequence] at hs
    obtain ⟨num, hnum, -, hnum2, hu⟩ := updateLease_of (db := w.db)
      (s := { key := N.n0, next := 0, leased := 0, bandwidth := c.lease }) (m := w.tr.seq.leased) (by omega) hi.stab.v0
    have hnl : num = w.tr.seq.leased := hnum2 _ hL hi.store
    simp only [hu] at hs
    cases hs
    refine ⟨?_, ?_, ?_, ?_⟩
    · refine { si with store := ?_, unset := ?_, nl := ?_, small := ?_, val := ?_, i2k := ?_, pnext := ?_, pdist := ?_ }
      · simp only [KV.set_same]
      · intro e
        simp only [KV.set_ne _ _ e]; exact hi.unset e
      · show num ≤ num + c.lease
        omega
      · show num + c.lease + c.lease < 2 ^ 56
        omega
      · intro k v h
        simp only [KV.set_ne _ _ (hN.k_ne_0 k)] at h
        obtain ⟨n, a, b, d⟩ := hi.val k v h
        refine ⟨n, by show n < num; omega, b, ?_⟩
        simp only [KV.set_ne _ _ (hN.i_ne_0 n)]; exact d
      · intro n k hn h
        simp only [KV.set_ne _ _ (hN.i_ne_0 n)] at h
        simp only [KV.set_ne _ _ (hN.k_ne_0 k)]
        obtain ⟨a, b⟩ := hi.i2k n k hn h
        exact ⟨by show n < num; omega, b⟩
      · intro p hp; cases hp
      · exact .nil
    all_goals intros; contradiction

end Verif.Tr

namespace Verif.Tr

theorem LifeInv.find {N : Names} {lease : Nat} {w : World} (h : LifeInv N lease w) (k : Bytes) (n : Nat) :
    findKey w k = some n ↔ n < 2 ^ 56 ∧ w.db (N.nk ++ k) = some (u64tob n) := by
  have hsm := h.small
  have hnl := h.nl
  unfold findKey
  rw [h.keys]
  cases hv : w.db (N.nk ++ k) with
  | none => simp
  | some v =>
    obtain ⟨m, h1, rfl, -⟩ := h.val k v hv
    have e : btou64 (u64tob m) = some m := by rw [btou64_u64tob, Nat.mod_eq_of_lt (by omega)]
    simp only [e, Option.some.injEq]
    constructor
    · rintro rfl; exact ⟨by omega, rfl⟩
    · rintro ⟨h3, h4⟩; exact u64tob_inj (by omega) (by omega) h4

theorem LifeInv.find_lt {N : Names} {lease : Nat} {w : World} (h : LifeInv N lease w) {k : Bytes} {n : Nat} (hf : findKey w k = some n) :
    n < w.tr.seq.next ∧ w.db (w.tr.ids ++ u64tob n) = some k := by
  have hsm := h.small
  have hnl := h.nl
  obtain ⟨h1, h2⟩ := (h.find k n).1 hf
  obtain ⟨m, a, b, d⟩ := h.val _ _ h2
  rw [u64tob_inj (by omega) (by omega) b, h.ids]
  exact ⟨a, d⟩

theorem LifeInv.find_none {N : Names} {lease : Nat} {w : World} (h : LifeInv N lease w) {k : Bytes} (hf : findKey w k = none) : w.db (N.nk ++ k) = none := by
  cases hv : w.db (N.nk ++ k) with
  | none => rfl
  | some v =>
    obtain ⟨m, h1, rfl, -⟩ := h.val k v hv
    have hsm := h.small
    have hnl := h.nl
    rw [(h.find k m).2 ⟨by omega, hv⟩] at hf
    cases hf

/-- One undisturbed translation. -/
structure Translated (N : Names) (lease : Nat) (w : World) (k : Bytes) (w' : World) (n : Nat) : Prop where
  run : translateKey w k = some (w', n)
  inv : LifeInv N lease w'
  pending : w'.pending = []
  hit : findKey w' k = some n
  keep : ∀ a m, findKey w a = some m → findKey w' a = some m
  only : ∀ a m, findKey w' a = some m → a = k ∨ findKey w a = some m
  old : (findKey w k).isSome → w' = w
  room : findKey w k = none → w.tr.seq.next < w.tr.seq.leased → w'.tr.seq.leased = w.tr.seq.leased ∧ w'.tr.seq.next = w.tr.seq.next + 1
  grow : findKey w k = none → w'.tr.seq.leased ≤ w.tr.seq.leased + lease

theorem life_translate {c : Config} (hpos : 0 < c.lease) {w : World} (hi : LifeInv (names c.pfx c.spare) c.lease w) (hp : w.pending = []) (k : Bytes)
    (hroom : Room (names c.pfx c.spare) c.lease w (.begin 0 k)) : ∃ w' n, Translated (names c.pfx c.spare) c.lease w k w' n := by
  have hN := names_ok c.pfx c.spare
  have hsm := hi.small
  have hnl := hi.nl
  cases hf : findKey w k with
  | some n =>
    refine ⟨w, n, ⟨?_, hi, hp, hf, fun a m h => h, fun a m h => .inr h, fun _ => rfl, fun h => (by rw [hf] at h; cases h), fun h => (by rw [hf] at h; cases h)⟩⟩
    obtain ⟨h1, h2⟩ := (hi.find k n).1 hf
    have e : btou64 (u64tob n) = some n := by rw [btou64_u64tob, Nat.mod_eq_of_lt (by omega)]
    simp only [translateKey, hi.keys, h2, e]
  | none =>
    have hnone := hi.find_none hf
    obtain ⟨w1, o1, hs1, hi1, hf1⟩ := life_step hN rfl hpos hi (.begin 0 k) hroom
    have hs1' := hs1
    simp only [step, hi.keys, hnone] at hs1
    cases hn : w.tr.seq.nextId w.db with
    | none => rw [hn] at hs1; cases hs1
    | some r =>
      obtain ⟨n, db, seq⟩ := r
      rw [hn] at hs1
      simp only [hp, List.nil_append] at hs1
      cases hs1
      obtain ⟨w2, o2, hs2, hi2, hf2⟩ := life_step hN rfl hpos hi1 (.commit 0 false) trivial
      have hno1 : db ((names c.pfx c.spare).nk ++ k) = none := by
        cases h : db ((names c.pfx c.spare).nk ++ k) with
        | none => rfl
        | some v =>
          rcases hf1.fresh k v h with h' | ⟨m, -, h'⟩
          · rw [hnone] at h'; cases h'
          · cases h'
      simp only [step, List.find?_cons, decide_true, hno1, Option.isSome_none, Bool.false_eq_true, or_self, if_false] at hs2
      cases hs2
      have hpend : (List.filter (fun q : Pending => decide (q.tid ≠ 0)) [⟨0, k, n⟩]) = [] := by simp
      simp only [hpend] at hi2 hf2
      have hrun : translateKey w k = some ({ db := (db.set ((names c.pfx c.spare).nk ++ k) (u64tob n)).set (w.tr.ids ++ u64tob n) k, tr := { seq := seq, keys := (names c.pfx c.spare).nk, ids := w.tr.ids }, pending := [] }, n) := by
        simp only [translateKey, hi.keys, hnone, hn, hp]
      have hkeep : ∀ a v, w.db ((names c.pfx c.spare).nk ++ a) = some v →
          ((db.set ((names c.pfx c.spare).nk ++ k) (u64tob n)).set (w.tr.ids ++ u64tob n) k) ((names c.pfx c.spare).nk ++ a) = some v :=
        fun a v h => hf2.mono a v (hf1.mono a v h)
      refine ⟨_, n, ⟨hrun, hi2, rfl, ?_, ?_, ?_, ?_, ?_, ?_⟩⟩
      · rw [hi2.find]
        exact ⟨(hf2.translated k n rfl).2, (hf2.translated k n rfl).1⟩
      · intro a m h
        rw [hi2.find]
        obtain ⟨h1, h2⟩ := (hi.find a m).1 h
        exact ⟨h1, hkeep a _ h2⟩
      · intro a m h
        rw [hi2.find] at h
        rcases hf2.fresh a _ h.2 with h' | ⟨x, hx, h'⟩
        · rcases hf1.fresh a _ h' with h'' | ⟨x, -, h''⟩
          · exact .inr ((hi.find a m).2 ⟨h.1, h''⟩)
          · cases h''
        · cases h'; exact .inl rfl
      · intro h; rw [hf] at h; cases h
      · intro _ hlt
        simp only [Sequence.nextId] at hn
        rw [if_neg (by omega)] at hn
        cases hn
        exact ⟨rfl, rfl⟩
      · intro _
        show seq.leased ≤ _
        simp only [Sequence.nextId] at hn
        split at hn
        · obtain ⟨num, hnum, -, -, hu⟩ := updateLease_of (db := w.db) (s := w.tr.seq) (m := w.tr.seq.leased) (by omega)
            (by rw [hi.seq]; exact hi.stab.vs)
          rw [hu] at hn
          cases hn
          show num + w.tr.seq.bandwidth ≤ _
          rw [hi.bw]; omega
        · cases hn
          show w.tr.seq.leased ≤ _
          omega

end Verif.Tr
