import Verif.Lemmas.Bsi3
import Mathlib.Data.List.Chain
/-!
# Builders given columns that are ascending only within each container
-/
namespace Verif.Rw
open Bt (shardWidth)

/-- A column, and the next one if it is in the same container, are ascending. -/
abbrev Step (a b : Nat) : Prop := a / 65536 = b / 65536 → a < b

/-- A container as it should be. -/
def ContGood (e : Nat × Cont) : Prop := ContOk e ∧ e.2.bits.Pairwise (· < ·)

/-- `b` holds exactly the values `vs`, in any order. -/
structure Keeps (b : RowBuilder) (vs : List Nat) : Prop where
  all : ∀ x, x ∈ vs ↔ x ∈ contBits (b.bm.getD []) ∨ x ∈ b.cur.map (b.key * 65536 + ·)
  conts : ∀ e ∈ b.bm.getD [], ContGood e
  keys : ((b.bm.getD []).map (·.1)).Nodup
  low : ∀ x ∈ b.cur, x < 65536
  asc : b.cur.Pairwise (· < ·)
  mask : ∀ m, b.mask = some m → b.array = [] ∧ b.n = m.length
  last : ∀ v, vs.getLast? = some v → v / 65536 = b.key ∧ ∀ x ∈ b.cur, b.key * 65536 + x ≤ v
  none : vs = [] → b.Idle

theorem Keeps.idle {b : RowBuilder} (h : b.Idle) : Keeps b [] := by
  have hi := h
  obtain ⟨h1, h2, h3⟩ := h
  have hc : b.cur = [] := by simp [RowBuilder.cur, h2, h3]
  exact ⟨by simp [h1, hc, contBits], by simp [h1], by simp [h1], by simp [hc], by simp [hc], by simp [h2], by simp, fun _ => hi⟩

theorem mem_contBits {m : List (Nat × Cont)} {x : Nat} : x ∈ contBits m ↔ ∃ e ∈ m, x ∈ e.2.bits.map (e.1 * 65536 + ·) := by
  unfold contBits; rw [List.mem_flatMap]

theorem getCont_some {key : Nat} {m : List (Nat × Cont)} {c : Cont} (h : getCont key m = some c) : (key, c) ∈ m := by
  unfold getCont at h
  rw [Option.map_eq_some_iff] at h
  obtain ⟨e, he, rfl⟩ := h
  have := List.find?_some he
  simp only [decide_eq_true_eq] at this
  have hm := List.mem_of_find?_eq_some he
  rw [← this]; exact hm

theorem getCont_none {key : Nat} {m : List (Nat × Cont)} (h : getCont key m = none) : ∀ e ∈ m, e.1 ≠ key := by
  unfold getCont at h
  rw [Option.map_eq_none_iff, List.find?_eq_none] at h
  intro e he
  have := h e he
  simpa using this

theorem keys_unique {m : List (Nat × Cont)} (h : (m.map (·.1)).Nodup) {e f : Nat × Cont} (he : e ∈ m) (hf : f ∈ m) (hk : e.1 = f.1) : e = f := by
  induction m with
  | nil => cases he
  | cons x m ih =>
    rw [List.map_cons, List.nodup_cons] at h
    rcases List.mem_cons.1 he with rfl | he' <;> rcases List.mem_cons.1 hf with rfl | hf'
    · rfl
    · exact absurd (List.mem_map.2 ⟨f, hf', hk.symm⟩) h.1
    · exact absurd (List.mem_map.2 ⟨e, he', hk⟩) h.1
    · exact ih h.2 he' hf'

/-- Putting a container, united with the one that is there, adds its values. -/
theorem put_spec {m : List (Nat × Cont)} {key : Nat} {c : Cont} (hm : ∀ e ∈ m, ContGood e) (hk : (m.map (·.1)).Nodup) (hc : ContGood (key, c)) :
    let m' := putCont key (match getCont key m with | none => c | some old => unionCont c old) m
    (∀ e ∈ m', ContGood e) ∧ (m'.map (·.1)).Nodup ∧ ∀ x, x ∈ contBits m' ↔ x ∈ contBits m ∨ x ∈ c.bits.map (key * 65536 + ·) := by
  have hn : ∀ c', ((putCont key c' m).map (·.1)).Nodup := by
    intro c'
    unfold putCont
    rw [List.map_append, List.nodup_append]
    refine ⟨(List.filter_sublist.map _).nodup hk, by simp, ?_⟩
    intro a ha b hb
    obtain ⟨e, he, rfl⟩ := List.mem_map.1 ha
    simp only [List.map_cons, List.map_nil, List.mem_singleton] at hb
    have := (List.mem_filter.1 he).2
    simp only [ne_eq, decide_eq_true_eq] at this
    rw [hb]; exact this
  have hmem : ∀ c' e, e ∈ putCont key c' m ↔ (e ∈ m ∧ e.1 ≠ key) ∨ e = (key, c') := by
    intro c' e
    unfold putCont
    simp [List.mem_append, List.mem_filter]
  cases hg : getCont key m with
  | none =>
    have hno := getCont_none hg
    intro m'
    have hm' : ∀ e, e ∈ m' ↔ (e ∈ m ∧ e.1 ≠ key) ∨ e = (key, c) := hmem c
    refine ⟨fun e he => ?_, hn _, fun x => ?_⟩
    · rcases (hm' e).1 he with h | rfl
      · exact hm e h.1
      · exact hc
    · rw [mem_contBits, mem_contBits]
      constructor
      · rintro ⟨e, he, hx⟩
        rcases (hm' e).1 he with h | rfl
        · exact .inl ⟨e, h.1, hx⟩
        · exact .inr hx
      · rintro (⟨e, he, hx⟩ | hx)
        · exact ⟨e, (hm' e).2 (.inl ⟨he, hno e he⟩), hx⟩
        · exact ⟨(key, c), (hm' _).2 (.inr rfl), hx⟩
  | some old =>
    have hold := getCont_some hg
    have hgo := hm _ hold
    have hbits : ∀ x, x ∈ (unionCont c old).bits ↔ x ∈ c.bits ∨ x ∈ old.bits := by
      intro x
      simp only [unionCont]
      rw [Bm.mem_or, Bm.mem_foldl_add]
      simp
    have hgu : ContGood (key, unionCont c old) := by
      refine ⟨⟨rfl, ?_⟩, ?_⟩
      · intro x hx
        rcases (hbits x).1 hx with h | h
        · exact hc.1.2 x h
        · exact hgo.1.2 x h
      · exact Bm.or_ok (Bm.foldl_add_ok Bm.nil_ok)
    intro m'
    have hm' : ∀ e, e ∈ m' ↔ (e ∈ m ∧ e.1 ≠ key) ∨ e = (key, unionCont c old) := hmem (unionCont c old)
    refine ⟨fun e he => ?_, hn _, fun x => ?_⟩
    · rcases (hm' e).1 he with h | rfl
      · exact hm e h.1
      · exact hgu
    · rw [mem_contBits, mem_contBits]
      constructor
      · rintro ⟨e, he, hx⟩
        rcases (hm' e).1 he with h | rfl
        · exact .inl ⟨e, h.1, hx⟩
        · obtain ⟨y, hy, rfl⟩ := List.mem_map.1 hx
          rcases (hbits y).1 hy with h | h
          · exact .inr (List.mem_map.2 ⟨y, h, rfl⟩)
          · exact .inl ⟨_, hold, List.mem_map.2 ⟨y, h, rfl⟩⟩
      · rintro (⟨e, he, hx⟩ | hx)
        · by_cases hek : e.1 = key
          · have := keys_unique hk he hold hek
            subst this
            obtain ⟨y, hy, rfl⟩ := List.mem_map.1 hx
            exact ⟨_, (hm' _).2 (.inr rfl), List.mem_map.2 ⟨y, (hbits y).2 (.inr hy), rfl⟩⟩
          · exact ⟨e, (hm' e).2 (.inl ⟨he, hek⟩), hx⟩
        · obtain ⟨y, hy, rfl⟩ := List.mem_map.1 hx
          exact ⟨_, (hm' _).2 (.inr rfl), List.mem_map.2 ⟨y, (hbits y).2 (.inl hy), rfl⟩⟩

theorem flush_keeps {b : RowBuilder} {vs : List Nat} (h : Keeps b vs) :
    (∀ x, x ∈ contBits (b.flushKey.bm.getD []) ↔ x ∈ vs) ∧ (∀ e ∈ b.flushKey.bm.getD [], ContGood e) ∧
    ((b.flushKey.bm.getD []).map (·.1)).Nodup ∧ b.flushKey.mask = none ∧ b.flushKey.array = [] ∧ (vs = [] → b.flushKey.bm = none) := by
  have hput : ∀ c : Cont, c.bits = b.cur → c.n = b.cur.length → ∀ b' : RowBuilder,
      b'.bm = some (putCont b.key (match getCont b.key (b.bm.getD []) with | none => c | some old => unionCont c old) (b.bm.getD [])) →
      (∀ x, x ∈ contBits (b'.bm.getD []) ↔ x ∈ vs) ∧ (∀ e ∈ b'.bm.getD [], ContGood e) ∧ ((b'.bm.getD []).map (·.1)).Nodup := by
    intro c hc hn b' hb'
    obtain ⟨p1, p2, p3⟩ := put_spec h.conts h.keys (key := b.key) (c := c) ⟨⟨by simpa [hc] using hn, by simpa [hc] using h.low⟩, by simpa [hc] using h.asc⟩
    rw [hb', Option.getD_some]
    refine ⟨fun x => ?_, p1, p2⟩
    rw [p3, h.all, hc]
  cases hm : b.mask with
  | some m =>
    obtain ⟨ha, hn⟩ := h.mask m hm
    have hc : b.cur = m := by simp [RowBuilder.cur, hm]
    obtain ⟨q1, q2, q3⟩ := hput { bits := m, n := b.n } hc.symm (by simp [hn, hc]) b.flushKey (by
      simp only [RowBuilder.flushKey, hm]
      cases getCont b.key (b.bm.getD []) <;> rfl)
    refine ⟨q1, q2, q3, ?_, ?_, ?_⟩
    · simp [RowBuilder.flushKey, hm]
    · simpa [RowBuilder.flushKey, hm] using ha
    · intro hv
      have := (h.none hv).2.1
      rw [hm] at this
      cases this
  | none =>
    have hc : b.cur = b.array := by simp [RowBuilder.cur, hm]
    by_cases ha : b.array = []
    · have e : b.flushKey = b := by simp [RowBuilder.flushKey, hm, ha]
      rw [e]
      refine ⟨fun x => ?_, h.conts, h.keys, hm, ha, fun hv => (h.none hv).1⟩
      rw [h.all, hc, ha]
      simp
    · obtain ⟨q1, q2, q3⟩ := hput { bits := b.array, n := b.array.length } hc.symm (by simp [hc]) b.flushKey (by
        simp only [RowBuilder.flushKey, hm]
        rw [if_pos ha]
        cases getCont b.key (b.bm.getD []) <;> rfl)
      refine ⟨q1, q2, q3, ?_, ?_, ?_⟩
      · simp [RowBuilder.flushKey, hm, ha]
      · simp [RowBuilder.flushKey, hm, ha]
      · intro hv
        exact absurd (h.none hv).2.2 ha

/-- Adding within the current key. -/
theorem addLow_keeps {b : RowBuilder} {vs : List Nat} {v : Nat} (h : Keeps b vs) (hk : b.key = v / 65536)
    (hl : ∀ x ∈ b.cur, x < v % 65536) : Keeps (b.addLow v) (vs ++ [v]) := by
  have hv : b.key * 65536 + v % 65536 = v := by rw [hk]; omega
  have hlt : v % 65536 < 65536 := Nat.mod_lt _ (by omega)
  have key : ∀ b' : RowBuilder, b'.bm = b.bm → b'.key = b.key → b'.cur = b.cur ++ [v % 65536] →
      (∀ m, b'.mask = some m → b'.array = [] ∧ b'.n = m.length) → Keeps b' (vs ++ [v]) := by
    intro b' e1 e2 e3 e4
    refine ⟨fun x => ?_, by rw [e1]; exact h.conts, by rw [e1]; exact h.keys, ?_, ?_, e4, ?_, by simp⟩
    · rw [e1, e2, e3, List.mem_append, h.all, List.map_append, List.mem_append, or_assoc]
      simp [hv]
    · rw [e3]
      intro x hx
      rcases List.mem_append.1 hx with hx | hx
      · exact h.low x hx
      · simp at hx; omega
    · rw [e3]
      exact List.pairwise_append.2 ⟨h.asc, by simp, by simpa using hl⟩
    · intro w hw
      simp only [List.getLast?_append, List.getLast?_singleton, Option.some_or, Option.some.injEq] at hw
      subst hw
      rw [e2, e3]
      refine ⟨hk.symm, fun x hx => ?_⟩
      rcases List.mem_append.1 hx with hx | hx
      · have := hl x hx; omega
      · simp at hx; omega
  cases hm : b.mask with
  | some m =>
    obtain ⟨ha, hn⟩ := h.mask m hm
    have hc : b.cur = m := by simp [RowBuilder.cur, hm]
    have hasc := h.asc
    rw [hc] at hl hasc
    have hnm : v % 65536 ∉ m := fun hx => by have := hl _ hx; omega
    have e : b.addLow v = { b with n := b.n + 1, mask := some (m ++ [v % 65536]) } := by
      simp only [RowBuilder.addLow, hm]
      rw [if_neg hnm, add_last hasc hl]
    rw [e]
    refine key _ rfl rfl (by rw [hc]; rfl) fun m' hm' => ?_
    cases hm'
    exact ⟨ha, by simp [hn]⟩
  | none =>
    have hc : b.cur = b.array := by simp [RowBuilder.cur, hm]
    have hasc := h.asc
    rw [hc] at hl hasc
    have hp : (b.array ++ [v % 65536]).Pairwise (· < ·) := List.pairwise_append.2 ⟨hasc, by simp, by simpa using hl⟩
    by_cases hle : arrayMaxSize ≤ (b.array ++ [v % 65536]).length
    · have e : b.addLow v = { b with n := (b.array ++ [v % 65536]).length, array := [], mask := some (b.array ++ [v % 65536]) } := by
        simp only [RowBuilder.addLow, hm]
        rw [if_pos hle, foldl_add_id hp]
      rw [e]
      refine key _ rfl rfl (by rw [hc]; rfl) fun m' hm' => ?_
      cases hm'
      exact ⟨rfl, rfl⟩
    · have e : b.addLow v = { b with array := b.array ++ [v % 65536] } := by
        simp only [RowBuilder.addLow, hm]
        rw [if_neg hle]
      rw [e]
      refine key _ rfl rfl (by rw [hc]; simp [RowBuilder.cur, hm]) fun m' hm' => ?_
      rw [hm] at hm'; cases hm'

theorem add_keeps {b : RowBuilder} {vs : List Nat} {v : Nat} (h : Keeps b vs) (hs : ∀ u, vs.getLast? = some u → Step u v) :
    Keeps (b.add v) (vs ++ [v]) := by
  unfold RowBuilder.add
  by_cases hk : b.key = v / 65536
  · rw [if_neg (by simpa using hk)]
    refine addLow_keeps h hk fun x hx => ?_
    cases hu : vs.getLast? with
    | none =>
      have := h.none (List.getLast?_eq_none_iff.1 hu)
      rw [show b.cur = [] from by simp [RowBuilder.cur, this.2.1, this.2.2]] at hx
      cases hx
    | some u =>
      obtain ⟨l1, l2⟩ := h.last u hu
      have := hs u hu (by omega)
      have := l2 x hx
      omega
  · rw [if_pos hk]
    obtain ⟨f1, f2, f3, f4, f5, f6⟩ := flush_keeps h
    have hv : v / 65536 * 65536 + v % 65536 = v := by omega
    have hlt : v % 65536 < 65536 := Nat.mod_lt _ (by omega)
    have e : RowBuilder.addLow { b.flushKey with key := v / 65536 } v =
        { b.flushKey with key := v / 65536, array := [v % 65536] } := by
      simp only [RowBuilder.addLow, f4, f5]
      rw [if_neg (by simp [arrayMaxSize])]; simp
    rw [e]
    have hc : (RowBuilder.cur { b.flushKey with key := v / 65536, array := [v % 65536] }) = [v % 65536] := by
      simp [RowBuilder.cur, f4]
    refine ⟨fun x => ?_, f2, f3, ?_, ?_, ?_, ?_, by simp⟩
    · rw [hc]
      simp only [List.map_cons, List.map_nil, hv, List.mem_append, List.mem_singleton]
      rw [f1]
    · rw [hc]; simp; omega
    · rw [hc]; simp
    · intro m hm
      rw [show ({ b.flushKey with key := v / 65536, array := [v % 65536] } : RowBuilder).mask = b.flushKey.mask from rfl, f4] at hm
      cases hm
    · intro w hw
      simp only [List.getLast?_append, List.getLast?_singleton, Option.some_or, Option.some.injEq] at hw
      subst hw
      rw [hc]
      refine ⟨rfl, fun x hx => ?_⟩
      simp only [List.mem_singleton] at hx
      show v / 65536 * 65536 + x ≤ v
      omega

theorem adds_keeps {b : RowBuilder} {vs : List Nat} (ws : List Nat) (h : Keeps b vs) (hs : (vs ++ ws).IsChain Step) :
    Keeps (ws.foldl RowBuilder.add b) (vs ++ ws) := by
  induction ws generalizing b vs with
  | nil => simpa using h
  | cons w ws ih =>
    have e : vs ++ w :: ws = vs ++ [w] ++ ws := by simp
    rw [e] at hs ⊢
    refine ih (add_keeps h fun u hu => ?_) hs
    have h1 := (List.isChain_append.1 hs).1
    exact (List.isChain_append.1 h1).2.2 u hu w rfl

/-! ## Building -/

theorem foldl_add_perm {l : List Nat} (h : l.Nodup) : (l.foldl Bm.add []).Perm l := by
  refine (List.perm_ext_iff_of_nodup ?_ h).2 fun x => ?_
  · exact (Bm.foldl_add_ok Bm.nil_ok).imp (fun h => Nat.ne_of_lt h)
  · rw [Bm.mem_foldl_add]; simp

theorem contBits_nodup {m : List (Nat × Cont)} (hm : ∀ e ∈ m, ContGood e) (hk : (m.map (·.1)).Nodup) : (contBits m).Nodup := by
  induction m with
  | nil => simp [contBits]
  | cons e m ih =>
    rw [List.map_cons, List.nodup_cons] at hk
    have hcb : contBits (e :: m) = e.2.bits.map (e.1 * 65536 + ·) ++ contBits m := by simp [contBits]
    rw [hcb, List.nodup_append]
    have he := hm e (by simp)
    refine ⟨?_, ih (fun f hf => hm f (List.mem_cons_of_mem _ hf)) hk.2, ?_⟩
    · refine List.Pairwise.map _ ?_ he.2
      intro a b hab; omega
    · intro a ha b hb
      obtain ⟨x, hx, rfl⟩ := List.mem_map.1 ha
      obtain ⟨f, hf, hb⟩ := mem_contBits.1 hb
      obtain ⟨y, hy, rfl⟩ := List.mem_map.1 hb
      have h1 := he.1.2 x hx
      have h2 := (hm f (List.mem_cons_of_mem _ hf)).1.2 y hy
      have h3 : e.1 ≠ f.1 := fun hc => hk.1 (List.mem_map.2 ⟨f, hf, hc.symm⟩)
      omega

theorem fromConts_eq' (h : Heap) {m : List (Nat × Cont)} (hm : ∀ e ∈ m, ContGood e) (hk : (m.map (·.1)).Nodup) (ks : List Nat) :
    fromConts h m ks = fromBitmap h ((contBits m).foldl Bm.add []) ks := by
  have hp := foldl_add_perm (contBits_nodup hm hk)
  induction ks generalizing h with
  | nil => rfl
  | cons k ks ih =>
    simp only [fromConts, fromBitmap, fresh, ih, contBits_count (fun e he => (hm e he).1)]
    rw [(hp.filter (fun x => decide (x / shardWidth = k))).length_eq]

theorem rowBuild_keeps {own h} {b : RowBuilder} {vs : List Nat} (hh : HOk own h) (hb : Keeps b vs) :
    ∃ own' t, (b.build h).1 = h ++ t ∧ Ext own h own' (h ++ t) ∧ HOk own' (h ++ t) ∧ ROk own' (h ++ t) (b.build h).2.1 ∧
      RCnt (h ++ t) (b.build h).2.1 ∧ (∀ x, x ∈ columns (h ++ t) (b.build h).2.1 ↔ x ∈ vs) ∧ (b.build h).2.2.Idle := by
  obtain ⟨f1, f2, f3, f4, f5, f6⟩ := flush_keeps hb
  unfold RowBuilder.build
  cases hm : b.flushKey.bm with
  | none =>
    simp only [hm]
    rw [hm] at f1
    refine ⟨own, [], by simp, by simpa using Ext.refl _ _, by simpa using hh, ⟨List.Pairwise.nil, by simp⟩, by simp [RCnt], ?_, hm, f4, f5⟩
    intro x
    rw [← f1]
    rfl
  | some m =>
    simp only [hm]
    rw [hm] at f1 f2 f3
    simp only [Option.getD_some] at f1 f2 f3
    rw [fromConts_eq' h f2 f3]
    generalize hB : (contBits m).foldl Bm.add [] = B
    have hBo : B.Pairwise (· < ·) := by rw [← hB]; exact Bm.foldl_add_ok Bm.nil_ok
    have hBm : ∀ x, x ∈ B ↔ x ∈ vs := by
      intro x
      rw [← f1, ← hB, Bm.mem_foldl_add]
      simp
    rw [fromBitmap_eq]
    obtain ⟨b1, b2, b3⟩ := fromBitmap_build (own := own) (h := h) B
    rw [foldl_add_id hBo] at b1 b2 b3
    obtain ⟨own', t, e1, e2, e3, e4, e5, _, e7⟩ := build_spec _ hh b1 b2
    refine ⟨own', t, e1, e2, e3, e4, fun s hs => ?_, ?_, rfl, f4, f5⟩
    · rcases e7 s hs with h | ⟨b, hb, _, e⟩
      · obtain ⟨k, _, e⟩ := List.mem_map.1 h
        cases e
      · obtain ⟨k, _, e'⟩ := List.mem_map.1 hb
        rw [e]
        simp only [bitmapItem, Item.mk.injEq] at e'
        rw [← e'.2.2.2, ← e'.2.1]
    · intro x
      rw [e5, ← hBm]; exact b3 x

theorem buildBsi_keeps {own h} (bs : List RowBuilder) (f : Nat → List Nat) (hh : HOk own h)
    (hb : ∀ j, j < bs.length → Keeps (bitBuilder bs j) (f j)) :
    ∃ own' t, (buildBsi h bs).1 = h ++ t ∧ Ext own h own' (h ++ t) ∧ HOk own' (h ++ t) ∧
      (∀ r ∈ (buildBsi h bs).2, ROk own' (h ++ t) r ∧ RCnt (h ++ t) r) ∧
      (∀ j c, c ∈ (sets (h ++ t) (buildBsi h bs).2).getD j [] ↔ j < bs.length ∧ c ∈ f j) := by
  induction bs generalizing own h f with
  | nil => exact ⟨own, [], by simp [buildBsi], by simpa using Ext.refl _ _, by simpa using hh, by simp [buildBsi], by simp [buildBsi, sets]⟩
  | cons b bs ih =>
    obtain ⟨own1, t1, a1, a2, a3, a4, a5, a6, _⟩ := rowBuild_keeps hh (hb 0 (by simp))
    have e0 : bitBuilder (b :: bs) 0 = b := rfl
    rw [e0] at a1 a4 a5 a6
    obtain ⟨own2, t2, b1, b2, b3, b4, b5⟩ := ih (fun j => f (j + 1)) a3 (fun j hj => hb (j + 1) (by simpa using hj))
    have e : buildBsi h (b :: bs) = ((buildBsi (h ++ t1) bs).1, (b.build h).2.1 :: (buildBsi (h ++ t1) bs).2) := by
      simp only [buildBsi, a1]
    rw [e]
    refine ⟨own2, t1 ++ t2, by rw [b1, List.append_assoc], ?_, ?_, ?_, ?_⟩
    · rw [← List.append_assoc]; exact a2.trans b2
    · rw [← List.append_assoc]; exact b3
    · rw [← List.append_assoc]
      intro r hr
      rcases List.mem_cons.1 hr with rfl | hr
      · exact ⟨a4.ext b2, a5.append a4 t2⟩
      · exact b4 r hr
    · rw [← List.append_assoc]
      intro j c
      cases j with
      | zero =>
        simp only [sets, List.map_cons, List.getD_cons_zero]
        rw [columns_append a4, a6]
        simp
      | succ j =>
        have := b5 j c
        simp only [sets, List.map_cons, List.getD_cons_succ] at this ⊢
        rw [this]
        simp

/-- Columns that come again, or out of order, only in different containers. -/
abbrev Apart (a b : Nat × Nat) : Prop := Step a.1 b.1 ∧ a.1 ≠ b.1

theorem colsWith_chain {es : List (Nat × Nat)} (hs : es.Pairwise Apart) (j : Nat) : (colsWith j es).IsChain Step := by
  unfold colsWith
  refine List.Pairwise.isChain ?_
  rw [List.pairwise_map]
  exact (hs.filter _).imp fun h => h.1

theorem keys_inj' {es : List (Nat × Nat)} (hs : es.Pairwise Apart) {a b : Nat × Nat} (ha : a ∈ es) (hb : b ∈ es)
    (e : a.1 = b.1) : a = b := by
  induction es with
  | nil => cases ha
  | cons x es ih =>
    rw [List.pairwise_cons] at hs
    rcases List.mem_cons.1 ha with e1 | ha' <;> rcases List.mem_cons.1 hb with e2 | hb'
    · rw [e1, e2]
    · have := (hs.1 b hb').2; subst e1; exact absurd e this
    · have := (hs.1 a ha').2; subst e2; exact absurd e.symm this
    · exact ih hs.2 ha' hb'

theorem bsi_keeps {own h} (es : List (Nat × Nat)) (hh : HOk own h) (hs : es.Pairwise Apart) (hv : ∀ e ∈ es, e.2 < 2 ^ 64) :
    ∃ own' t, (buildBsi h (es.foldl (fun bs e => insert bs e.1 e.2) [])).1 = h ++ t ∧ Ext own h own' (h ++ t) ∧ HOk own' (h ++ t) ∧
      (∀ r ∈ (buildBsi h (es.foldl (fun bs e => insert bs e.1 e.2) [])).2, ROk own' (h ++ t) r ∧ RCnt (h ++ t) r) ∧
      (∀ e ∈ es, value (sets (h ++ t) (buildBsi h (es.foldl (fun bs e => insert bs e.1 e.2) [])).2) e.1 = e.2) ∧
      (∀ c, (∀ e ∈ es, e.1 ≠ c) → value (sets (h ++ t) (buildBsi h (es.foldl (fun bs e => insert bs e.1 e.2) [])).2) c = 0) := by
  have hidle : RowBuilder.Idle {} := ⟨rfl, rfl, rfl⟩
  have hold : ∀ j, Keeps (bitBuilder (es.foldl (fun bs e => insert bs e.1 e.2) []) j) (colsWith j es) := by
    intro j
    rw [bitBuilder_all es hv]
    have := adds_keeps (vs := []) (colsWith j es) (Keeps.idle hidle) (by simpa using colsWith_chain hs j)
    simpa [bitBuilder] using this
  generalize es.foldl (fun bs e => insert bs e.1 e.2) [] = bs at hold ⊢
  obtain ⟨own', t, b1, b2, b3, b4, b5⟩ := buildBsi_keeps bs (fun j => colsWith j es) hh (fun j _ => hold j)
  have hbit : ∀ c j, (value (sets (h ++ t) (buildBsi h bs).2) c).testBit j = decide (c ∈ colsWith j es) := by
    intro c j
    rw [value_testBit]
    congr 1
    rw [b5, eq_iff_iff]
    by_cases hj : j < bs.length
    · simp [hj]
    · have h0 : c ∉ colsWith j es := by
        have := hold j
        rw [show bitBuilder bs j = {} from by simp [bitBuilder, List.getD_eq_getElem?_getD, List.getElem?_eq_none (Nat.le_of_not_lt hj)]] at this
        rw [this.all]; simp [RowBuilder.cur, contBits]
      simp [hj, h0]
  refine ⟨own', t, b1, b2, b3, b4, fun e he => Nat.eq_of_testBit_eq fun j => ?_, fun c hc => Nat.eq_of_testBit_eq fun j => ?_⟩
  · rw [hbit]
    by_cases hj : e.2.testBit j = true
    · rw [hj, decide_eq_true_eq]
      exact List.mem_map.2 ⟨e, List.mem_filter.2 ⟨he, hj⟩, rfl⟩
    · rw [Bool.eq_false_iff.2 hj, decide_eq_false_iff_not]
      intro hm
      obtain ⟨e', he', e1⟩ := List.mem_map.1 hm
      obtain ⟨he', hj'⟩ := List.mem_filter.1 he'
      have : e' = e := keys_inj' hs he' he e1
      exact hj (this ▸ hj')
  · rw [hbit, Nat.zero_testBit, decide_eq_false_iff_not]
    intro hm
    obtain ⟨e', he', e1⟩ := List.mem_map.1 hm
    exact hc e' (List.mem_filter.1 he').1 e1

end Verif.Rw
