import Verif.Lemmas.Bsi2
/-!
# Builders of rows and of bit-sliced integers: lemmas
-/
namespace Verif.Rw
open Bt (shardWidth)

theorem add_last {m : Bm} {x : Nat} (hm : m.Ok) (h : ∀ y ∈ m, y < x) : m.add x = m ++ [x] := by
  refine sorted_ext (Bm.add_ok hm x) (List.pairwise_append.2 ⟨hm, by simp, by simpa using h⟩) fun z => ?_
  rw [Bm.mem_add]; simp [or_comm]

theorem foldl_add_id {l : List Nat} (h : l.Pairwise (· < ·)) : l.foldl Bm.add [] = l :=
  sorted_ext (Bm.foldl_add_ok Bm.nil_ok) h fun z => by rw [Bm.mem_foldl_add]; simp

/-- A builder that holds nothing. -/
def RowBuilder.Idle (b : RowBuilder) : Prop := b.bm = none ∧ b.mask = none ∧ b.array = []

/-- The low halves not yet in a container. -/
def RowBuilder.cur (b : RowBuilder) : List Nat :=
  match b.mask with
  | some m => m
  | none => b.array

def ContOk (e : Nat × Cont) : Prop := e.2.n = e.2.bits.length ∧ ∀ x ∈ e.2.bits, x < 65536

/-- `b` holds exactly the values `vs`. -/
structure Holds (b : RowBuilder) (vs : List Nat) : Prop where
  all : vs = contBits (b.bm.getD []) ++ b.cur.map (b.key * 65536 + ·)
  conts : ∀ e ∈ b.bm.getD [], ContOk e ∧ e.1 < b.key
  low : ∀ x ∈ b.cur, x < 65536
  mask : ∀ m, b.mask = some m → b.array = [] ∧ b.n = m.length ∧ m ≠ []
  some : vs ≠ [] → b.cur ≠ []
  bm : b.bm ≠ none → vs ≠ []

theorem Holds.idle {b : RowBuilder} (h : b.Idle) : Holds b [] := by
  obtain ⟨h1, h2, h3⟩ := h
  exact ⟨by simp [h1, RowBuilder.cur, h2, h3, contBits], by simp [h1], by simp [RowBuilder.cur, h2, h3],
    by simp [h2], by simp, by simp [h1]⟩

theorem putCont_new {key : Nat} {c : Cont} {m : List (Nat × Cont)} (h : ∀ e ∈ m, e.1 < key) : putCont key c m = m ++ [(key, c)] := by
  unfold putCont
  rw [List.filter_eq_self.2 fun e he => by have := h e he; simp; omega]

theorem getCont_new {key : Nat} {m : List (Nat × Cont)} (h : ∀ e ∈ m, e.1 < key) : getCont key m = none := by
  unfold getCont
  rw [List.find?_eq_none.2 fun e he => by have := h e he; simp; omega]
  rfl

theorem contBits_snoc (m : List (Nat × Cont)) (k : Nat) (c : Cont) :
    contBits (m ++ [(k, c)]) = contBits m ++ c.bits.map (k * 65536 + ·) := by simp [contBits]

/-- Flushing moves the current values into a container. -/
theorem flushKey_spec {b : RowBuilder} {vs : List Nat} (h : Holds b vs) :
    contBits (b.flushKey.bm.getD []) = vs ∧ (∀ e ∈ b.flushKey.bm.getD [], ContOk e ∧ e.1 ≤ b.key) ∧
    b.flushKey.mask = none ∧ b.flushKey.array = [] ∧ b.flushKey.key = b.key ∧ (vs = [] → b.flushKey.bm = none) := by
  have hk := fun e he => (h.conts e he).2
  have hlow := h.low
  have hall := h.all
  have hsome := h.some
  have hbm := h.bm
  cases hm : b.mask with
  | some m =>
    obtain ⟨ha, hn, hne⟩ := h.mask m hm
    have hc : b.cur = m := by simp [RowBuilder.cur, hm]
    rw [hc] at hlow hall hsome
    have e : b.flushKey = { b with mask := none, bm := some (b.bm.getD [] ++ [(b.key, { bits := m, n := b.n })]) } := by
      simp only [RowBuilder.flushKey, hm]
      rw [getCont_new hk, putCont_new hk]
    rw [e]
    refine ⟨by simp only [Option.getD_some]; rw [contBits_snoc, hall], ?_, rfl, ha, rfl, ?_⟩
    · intro e he
      simp only [Option.getD_some] at he
      rcases List.mem_append.1 he with he | he
      · exact ⟨(h.conts e he).1, Nat.le_of_lt (hk e he)⟩
      · simp at he; subst he; exact ⟨⟨hn, hlow⟩, Nat.le_refl _⟩
    · intro hv
      rw [hv] at hall
      have := (List.append_eq_nil_iff.1 hall.symm).2
      exact absurd (List.map_eq_nil_iff.1 this) hne
  | none =>
    have hc : b.cur = b.array := by simp [RowBuilder.cur, hm]
    rw [hc] at hlow hall hsome
    by_cases ha : b.array = []
    · have e : b.flushKey = b := by simp [RowBuilder.flushKey, hm, ha]
      rw [e]
      refine ⟨by rw [hall, ha]; simp, fun e he => ⟨(h.conts e he).1, Nat.le_of_lt (hk e he)⟩, hm, ha, rfl, fun hv => ?_⟩
      cases hb : b.bm with
      | none => rfl
      | some m => exact absurd hv (hbm (by rw [hb]; simp))
    · have e : b.flushKey = { b with array := [], bm := some (b.bm.getD [] ++ [(b.key, { bits := b.array, n := b.array.length })]) } := by
        simp only [RowBuilder.flushKey, hm]
        rw [if_pos ha, getCont_new hk, putCont_new hk]
      rw [e]
      refine ⟨by simp only [Option.getD_some]; rw [contBits_snoc, hall], ?_, hm, rfl, rfl, ?_⟩
      · intro e he
        simp only [Option.getD_some] at he
        rcases List.mem_append.1 he with he | he
        · exact ⟨(h.conts e he).1, Nat.le_of_lt (hk e he)⟩
        · simp at he; subst he; exact ⟨⟨rfl, hlow⟩, Nat.le_refl _⟩
      · intro hv
        rw [hv] at hall
        have := (List.append_eq_nil_iff.1 hall.symm).2
        exact absurd (List.map_eq_nil_iff.1 this) ha

/-- Adding within the current key. -/
theorem addLow_spec {b : RowBuilder} {vs : List Nat} {v : Nat} (h : Holds b vs) (hs : (vs ++ [v]).Pairwise (· < ·))
    (hk : b.key = v / 65536) : Holds (b.addLow v) (vs ++ [v]) := by
  have hv : b.key * 65536 + v % 65536 = v := by rw [hk]; omega
  have hlt : v % 65536 < 65536 := Nat.mod_lt _ (by omega)
  have hall := h.all
  have hvs := (List.pairwise_append.1 hs).1
  have hcs : b.cur.Pairwise (· < ·) := by
    rw [hall] at hvs
    have := List.pairwise_map.1 (List.pairwise_append.1 hvs).2.1
    exact this.imp fun h => by omega
  have hcl : ∀ x ∈ b.cur, x < v % 65536 := by
    intro x hx
    have : b.key * 65536 + x ∈ vs := by
      rw [hall]; exact List.mem_append_right _ (List.mem_map.2 ⟨x, hx, rfl⟩)
    have := (List.pairwise_append.1 hs).2.2 _ this v (by simp)
    omega
  have key : ∀ b' : RowBuilder, b'.bm = b.bm → b'.key = b.key → b'.cur = b.cur ++ [v % 65536] →
      (∀ m, b'.mask = some m → b'.array = [] ∧ b'.n = m.length ∧ m ≠ []) → Holds b' (vs ++ [v]) := by
    intro b' e1 e2 e3 e4
    refine ⟨?_, ?_, ?_, e4, fun _ => by rw [e3]; simp, by simp⟩
    · rw [e1, e2, e3, hall]; simp [hv]
    · rw [e1, e2]; exact h.conts
    · rw [e3]
      intro x hx
      rcases List.mem_append.1 hx with hx | hx
      · exact h.low x hx
      · simp at hx; omega
  cases hm : b.mask with
  | some m =>
    obtain ⟨ha, hn, hne⟩ := h.mask m hm
    have hc : b.cur = m := by simp [RowBuilder.cur, hm]
    rw [hc] at hcs hcl
    have hnm : v % 65536 ∉ m := fun hx => by have := hcl _ hx; omega
    have e : b.addLow v = { b with n := b.n + 1, mask := some (m ++ [v % 65536]) } := by
      simp only [RowBuilder.addLow, hm]
      rw [if_neg hnm, add_last hcs hcl]
    rw [e]
    refine key _ rfl rfl (by rw [hc]; rfl) fun m' hm' => ?_
    cases hm'
    exact ⟨ha, by simp [hn], by simp⟩
  | none =>
    have hc : b.cur = b.array := by simp [RowBuilder.cur, hm]
    rw [hc] at hcs hcl
    have hp : (b.array ++ [v % 65536]).Pairwise (· < ·) := List.pairwise_append.2 ⟨hcs, by simp, by simpa using hcl⟩
    by_cases hl : arrayMaxSize ≤ (b.array ++ [v % 65536]).length
    · have e : b.addLow v = { b with n := (b.array ++ [v % 65536]).length, array := [], mask := some (b.array ++ [v % 65536]) } := by
        simp only [RowBuilder.addLow, hm]
        rw [if_pos hl, foldl_add_id hp]
      rw [e]
      refine key _ rfl rfl (by rw [hc]; rfl) fun m' hm' => ?_
      cases hm'
      exact ⟨rfl, rfl, by simp⟩
    · have e : b.addLow v = { b with array := b.array ++ [v % 65536] } := by
        simp only [RowBuilder.addLow, hm]
        rw [if_neg hl]
      rw [e]
      refine key _ rfl rfl (by rw [hc]; simp [RowBuilder.cur, hm]) fun m' hm' => ?_
      rw [hm] at hm'; cases hm'

theorem add_spec {b : RowBuilder} {vs : List Nat} {v : Nat} (h : Holds b vs) (hs : (vs ++ [v]).Pairwise (· < ·)) :
    Holds (b.add v) (vs ++ [v]) := by
  unfold RowBuilder.add
  by_cases hk : b.key = v / 65536
  · rw [if_neg (by simpa using hk)]; exact addLow_spec h hs hk
  · rw [if_pos hk]
    obtain ⟨f1, f2, f3, f4, f5, f6⟩ := flushKey_spec h
    have hbig : vs ≠ [] → b.key < v / 65536 := by
      intro hne
      obtain ⟨x, hx⟩ := List.exists_mem_of_ne_nil _ (h.some hne)
      have : b.key * 65536 + x ∈ vs := by
        rw [h.all]; exact List.mem_append_right _ (List.mem_map.2 ⟨x, hx, rfl⟩)
      have := (List.pairwise_append.1 hs).2.2 _ this v (by simp)
      omega
    -- the flushed builder holds the values in containers only, so `addLow` is applied to an intermediate state
    have hv : v / 65536 * 65536 + v % 65536 = v := by omega
    have hlt : v % 65536 < 65536 := Nat.mod_lt _ (by omega)
    have e : RowBuilder.addLow { b.flushKey with key := v / 65536 } v =
        { b.flushKey with key := v / 65536, array := [v % 65536] } := by
      simp only [RowBuilder.addLow, f3, f4]
      rw [if_neg (by simp [arrayMaxSize])]; simp
    rw [e]
    have hc : (RowBuilder.cur { b.flushKey with key := v / 65536, array := [v % 65536] }) = [v % 65536] := by
      simp [RowBuilder.cur, f3]
    refine ⟨?_, ?_, ?_, ?_, fun _ => by rw [hc]; simp, by simp⟩
    · rw [hc]; simp only [List.map_cons, List.map_nil, hv]; rw [f1]
    · intro e he
      have := f2 e he
      refine ⟨this.1, ?_⟩
      have hne : vs ≠ [] := by
        intro hv0
        have hb := f6 hv0
        rw [show ({ b.flushKey with key := v / 65536, array := [v % 65536] } : RowBuilder).bm = b.flushKey.bm from rfl, hb] at he
        cases he
      have := hbig hne
      show e.1 < v / 65536
      omega
    · rw [hc]; simp; omega
    · intro m hm
      rw [show ({ b.flushKey with key := v / 65536, array := [v % 65536] } : RowBuilder).mask = b.flushKey.mask from rfl, f3] at hm
      cases hm

theorem adds_spec {b : RowBuilder} {vs : List Nat} (ws : List Nat) (h : Holds b vs) (hs : (vs ++ ws).Pairwise (· < ·)) :
    Holds (ws.foldl RowBuilder.add b) (vs ++ ws) := by
  induction ws generalizing b vs with
  | nil => simpa using h
  | cons w ws ih =>
    have e : vs ++ w :: ws = vs ++ [w] ++ ws := by simp
    rw [e] at hs ⊢
    exact ih (add_spec h (List.pairwise_append.1 hs).1) hs

/-! ## Building -/

theorem cont_shard {e : Nat × Cont} (h : ContOk e) {x : Nat} (hx : x ∈ e.2.bits.map (e.1 * 65536 + ·)) : x / shardWidth = e.1 / 16 := by
  obtain ⟨y, hy, rfl⟩ := List.mem_map.1 hx
  have := h.2 y hy
  rw [show shardWidth = 1048576 from rfl]; omega

theorem contBits_count {m : List (Nat × Cont)} (hm : ∀ e ∈ m, ContOk e) (k : Nat) :
    ((m.filter (fun e => decide (e.1 / 16 = k))).map (fun e => e.2.n)).sum =
      ((contBits m).filter (fun x => decide (x / shardWidth = k))).length := by
  induction m with
  | nil => rfl
  | cons e m ih =>
    have he := hm e (by simp)
    have := ih (fun e h => hm e (List.mem_cons_of_mem _ h))
    have hcb : contBits (e :: m) = e.2.bits.map (e.1 * 65536 + ·) ++ contBits m := by simp [contBits]
    rw [hcb, List.filter_append, List.length_append, ← this]
    by_cases hk : e.1 / 16 = k
    · rw [List.filter_cons_of_pos (by simpa using hk), List.map_cons, List.sum_cons, he.1]
      congr 1
      rw [List.filter_eq_self.2 fun x hx => by simpa using (cont_shard he hx).trans hk, List.length_map]
    · rw [List.filter_cons_of_neg (by simpa using hk)]
      have : (e.2.bits.map (e.1 * 65536 + ·)).filter (fun x => decide (x / shardWidth = k)) = [] :=
        List.filter_eq_nil_iff.2 fun x hx => by simpa using fun h => hk ((cont_shard he hx).symm.trans h)
      rw [this]; simp

theorem fromConts_eq (h : Heap) {m : List (Nat × Cont)} (hm : ∀ e ∈ m, ContOk e) (hs : (contBits m).Pairwise (· < ·)) (ks : List Nat) :
    fromConts h m ks = fromBitmap h (contBits m) ks := by
  induction ks generalizing h with
  | nil => rfl
  | cons k ks ih =>
    simp only [fromConts, fromBitmap, fresh, foldl_add_id hs, ih, contBits_count hm]

theorem rowBuild_spec {own h} {b : RowBuilder} {vs : List Nat} (hh : HOk own h) (hb : Holds b vs) (hs : vs.Pairwise (· < ·)) :
    ∃ own' t, (b.build h).1 = h ++ t ∧ Ext own h own' (h ++ t) ∧ HOk own' (h ++ t) ∧ ROk own' (h ++ t) (b.build h).2.1 ∧
      RCnt (h ++ t) (b.build h).2.1 ∧ columns (h ++ t) (b.build h).2.1 = vs ∧ (b.build h).2.2.Idle := by
  obtain ⟨f1, f2, f3, f4, f5, f6⟩ := flushKey_spec hb
  unfold RowBuilder.build
  cases hm : b.flushKey.bm with
  | none =>
    simp only [hm]
    rw [hm] at f1
    refine ⟨own, [], by simp, by simpa using Ext.refl _ _, by simpa using hh, ⟨List.Pairwise.nil, by simp⟩, by simp [RCnt], ?_, hm, f3, f4⟩
    rw [← f1]; rfl
  | some m =>
    simp only [hm]
    rw [hm] at f1 f2
    simp only [Option.getD_some] at f1 f2
    have hs' : (contBits m).Pairwise (· < ·) := by rw [f1]; exact hs
    rw [fromConts_eq h (fun e he => (f2 e he).1) hs', foldl_add_id hs', fromBitmap_eq]
    obtain ⟨b1, b2, b3⟩ := fromBitmap_build (own := own) (h := h) (contBits m)
    rw [foldl_add_id hs'] at b1 b2 b3
    obtain ⟨own', t, e1, e2, e3, e4, e5, _, e7⟩ := build_spec _ hh b1 b2
    refine ⟨own', t, e1, e2, e3, e4, fun s hs => ?_, ?_, rfl, f3, f4⟩
    · rcases e7 s hs with h | ⟨b, hb, _, e⟩
      · obtain ⟨k, _, e⟩ := List.mem_map.1 h
        cases e
      · obtain ⟨k, _, e'⟩ := List.mem_map.1 hb
        rw [e]
        simp only [bitmapItem, Item.mk.injEq] at e'
        rw [← e'.2.2.2, ← e'.2.1]
    · rw [← f1]
      refine sorted_ext (columns_sorted e3 e4) hs' fun x => ?_
      rw [e5]; exact b3 x

/-! ## Builders of integers -/

/-- The builder of bit `j` (a new one if there is none yet). -/
def bitBuilder (bs : List RowBuilder) (j : Nat) : RowBuilder := bs.getD j {}

theorem bitBuilder_insertAt (col i : Nat) (bs : List RowBuilder) (j : Nat) :
    bitBuilder (insertAt col i bs) j = if j = i then (bitBuilder bs j).add col else bitBuilder bs j := by
  induction i generalizing bs j with
  | zero => cases bs <;> cases j <;> simp [insertAt, bitBuilder]
  | succ i ih =>
    cases bs with
    | nil =>
      cases j with
      | zero => simp [insertAt, bitBuilder]
      | succ j => have := ih [] j; simp [insertAt, bitBuilder] at *; exact this
    | cons b bs =>
      cases j with
      | zero => simp [insertAt, bitBuilder]
      | succ j => have := ih bs j; simp [insertAt, bitBuilder] at *; exact this

theorem bitBuilder_inserts (col : Nat) (is : List Nat) (hn : is.Nodup) (bs : List RowBuilder) (j : Nat) :
    bitBuilder (is.foldl (fun bs i => insertAt col i bs) bs) j = if j ∈ is then (bitBuilder bs j).add col else bitBuilder bs j := by
  induction is generalizing bs with
  | nil => simp
  | cons i is ih =>
    rw [List.nodup_cons] at hn
    rw [List.foldl_cons, ih hn.2, bitBuilder_insertAt]
    by_cases h1 : j = i
    · subst h1; simp [hn.1]
    · simp [h1]

theorem bitBuilder_insert (bs : List RowBuilder) (col val : Nat) (hv : val < 2 ^ 64) (j : Nat) :
    bitBuilder (insert bs col val) j = if val.testBit j then (bitBuilder bs j).add col else bitBuilder bs j := by
  unfold insert
  rw [bitBuilder_inserts _ _ (List.Pairwise.filter _ List.nodup_range)]
  have : j ∈ (List.range 64).filter (fun i => val.testBit i) ↔ val.testBit j = true := by
    simp only [List.mem_filter, List.mem_range]
    refine ⟨fun h => h.2, fun h => ⟨?_, h⟩⟩
    refine Nat.lt_of_not_le fun hc => ?_
    have := Nat.testBit_lt_two_pow (Nat.lt_of_lt_of_le hv (Nat.pow_le_pow_right (by omega) hc))
    rw [this] at h; cases h
  by_cases h : val.testBit j = true
  · rw [if_pos (this.2 h), if_pos h]
  · rw [if_neg (fun hc => h (this.1 hc)), if_neg h]

/-- The columns whose value has bit `j`. -/
def colsWith (j : Nat) (es : List (Nat × Nat)) : List Nat := (es.filter (fun e => e.2.testBit j)).map (·.1)

theorem bitBuilder_all (es : List (Nat × Nat)) (hv : ∀ e ∈ es, e.2 < 2 ^ 64) (bs : List RowBuilder) (j : Nat) :
    bitBuilder (es.foldl (fun bs e => insert bs e.1 e.2) bs) j = (colsWith j es).foldl RowBuilder.add (bitBuilder bs j) := by
  induction es generalizing bs with
  | nil => rfl
  | cons e es ih =>
    rw [List.foldl_cons, ih (fun e h => hv e (List.mem_cons_of_mem _ h)), bitBuilder_insert _ _ _ (hv e (by simp))]
    by_cases h : e.2.testBit j = true
    · rw [if_pos h]; simp only [colsWith, List.filter_cons, h, if_true, List.map_cons, List.foldl_cons]
    · rw [if_neg h]; simp only [colsWith, List.filter_cons, h]; simp

theorem value_testBit (ss : List (List Nat)) (c j : Nat) : (value ss c).testBit j = decide (c ∈ ss.getD j []) := by
  induction ss generalizing j with
  | nil => simp [value]
  | cons s ss ih =>
    cases j with
    | zero =>
      by_cases h : c ∈ s <;> simp [value, h, Nat.testBit_zero]
    | succ j =>
      have : value (s :: ss) c / 2 = value ss c := by simp only [value]; split <;> omega
      rw [Nat.testBit_succ, this, ih]; simp

theorem buildBsi_spec {own h} (bs : List RowBuilder) (f : Nat → List Nat) (hh : HOk own h)
    (hb : ∀ j, j < bs.length → Holds (bitBuilder bs j) (f j)) (hs : ∀ j, (f j).Pairwise (· < ·)) :
    ∃ own' t, (buildBsi h bs).1 = h ++ t ∧ Ext own h own' (h ++ t) ∧ HOk own' (h ++ t) ∧
      (∀ r ∈ (buildBsi h bs).2, ROk own' (h ++ t) r ∧ RCnt (h ++ t) r) ∧
      sets (h ++ t) (buildBsi h bs).2 = (List.range bs.length).map f := by
  induction bs generalizing own h f with
  | nil => exact ⟨own, [], by simp [buildBsi], by simpa using Ext.refl _ _, by simpa using hh, by simp [buildBsi], by simp [buildBsi, sets]⟩
  | cons b bs ih =>
    obtain ⟨own1, t1, a1, a2, a3, a4, a5, a6, _⟩ := rowBuild_spec hh (hb 0 (by simp)) (hs 0)
    have e0 : bitBuilder (b :: bs) 0 = b := rfl
    rw [e0] at a1 a4 a5 a6
    obtain ⟨own2, t2, b1, b2, b3, b4, b5⟩ := ih (fun j => f (j + 1)) a3 (fun j hj => hb (j + 1) (by simpa using hj)) (fun j => hs (j + 1))
    have e : buildBsi h (b :: bs) = ((buildBsi (h ++ t1) bs).1, (b.build h).2.1 :: (buildBsi (h ++ t1) bs).2) := by
      simp only [buildBsi, a1]
    rw [e]
    refine ⟨own2, t1 ++ t2, by rw [b1, List.append_assoc], ?_, ?_, ?_, ?_⟩
    · rw [← List.append_assoc]; exact a2.trans b2
    · rw [← List.append_assoc]; exact b3
    · rw [← List.append_assoc]
      intro r hr
      rcases List.mem_cons.1 hr with rfl | hr
      · exact ⟨a4.ext b2, a5.append a4 t2⟩
      · exact b4 r hr
    · rw [← List.append_assoc]
      simp only [sets, List.map_cons] at b5 ⊢
      rw [b5, columns_append a4, a6, List.length_cons, List.range_succ_eq_map, List.map_cons, List.map_map]
      rfl

theorem colsWith_sorted {es : List (Nat × Nat)} (hs : es.Pairwise (fun a b => a.1 < b.1)) (j : Nat) :
    (colsWith j es).Pairwise (· < ·) := by
  unfold colsWith
  rw [List.pairwise_map]
  exact hs.filter _

theorem keys_inj {es : List (Nat × Nat)} (hs : es.Pairwise (fun a b => a.1 < b.1)) {a b : Nat × Nat} (ha : a ∈ es) (hb : b ∈ es)
    (e : a.1 = b.1) : a = b := by
  induction es with
  | nil => cases ha
  | cons x es ih =>
    rw [List.pairwise_cons] at hs
    rcases List.mem_cons.1 ha with e1 | ha' <;> rcases List.mem_cons.1 hb with e2 | hb'
    · rw [e1, e2]
    · have := hs.1 b hb'; subst e1; omega
    · have := hs.1 a ha'; subst e2; omega
    · exact ih hs.2 ha' hb'

theorem bsi_spec {own h} (es : List (Nat × Nat)) (hh : HOk own h) (hs : es.Pairwise (fun a b => a.1 < b.1))
    (hv : ∀ e ∈ es, e.2 < 2 ^ 64) :
    ∃ own' t, (buildBsi h (es.foldl (fun bs e => insert bs e.1 e.2) [])).1 = h ++ t ∧ Ext own h own' (h ++ t) ∧ HOk own' (h ++ t) ∧
      (∀ r ∈ (buildBsi h (es.foldl (fun bs e => insert bs e.1 e.2) [])).2, ROk own' (h ++ t) r ∧ RCnt (h ++ t) r) ∧
      (∀ e ∈ es, value (sets (h ++ t) (buildBsi h (es.foldl (fun bs e => insert bs e.1 e.2) [])).2) e.1 = e.2) ∧
      (∀ c, (∀ e ∈ es, e.1 ≠ c) → value (sets (h ++ t) (buildBsi h (es.foldl (fun bs e => insert bs e.1 e.2) [])).2) c = 0) := by
  have hidle : RowBuilder.Idle {} := ⟨rfl, rfl, rfl⟩
  have hold : ∀ j, Holds (bitBuilder (es.foldl (fun bs e => insert bs e.1 e.2) []) j) (colsWith j es) := by
    intro j
    rw [bitBuilder_all es hv]
    have := adds_spec (vs := []) (colsWith j es) (Holds.idle hidle) (by simpa using colsWith_sorted hs j)
    simpa [bitBuilder] using this
  generalize es.foldl (fun bs e => insert bs e.1 e.2) [] = bs at hold ⊢
  obtain ⟨own', t, b1, b2, b3, b4, b5⟩ := buildBsi_spec bs (fun j => colsWith j es) hh (fun j _ => hold j) (colsWith_sorted hs)
  have hbit : ∀ c j, (value (sets (h ++ t) (buildBsi h bs).2) c).testBit j = decide (c ∈ colsWith j es) := by
    intro c j
    rw [value_testBit, b5]
    congr 1
    by_cases hj : j < bs.length
    · simp [List.getD_eq_getElem?_getD, hj]
    · have h0 : colsWith j es = [] := by
        have := hold j
        rw [show bitBuilder bs j = {} from by simp [bitBuilder, List.getD_eq_getElem?_getD, List.getElem?_eq_none (Nat.le_of_not_lt hj)]] at this
        rw [this.all]; rfl
      simp [List.getD_eq_getElem?_getD, hj, h0]
  refine ⟨own', t, b1, b2, b3, b4, fun e he => Nat.eq_of_testBit_eq fun j => ?_, fun c hc => Nat.eq_of_testBit_eq fun j => ?_⟩
  · rw [hbit]
    by_cases hj : e.2.testBit j = true
    · rw [hj, decide_eq_true_eq]
      exact List.mem_map.2 ⟨e, List.mem_filter.2 ⟨he, hj⟩, rfl⟩
    · rw [Bool.eq_false_iff.2 hj, decide_eq_false_iff_not]
      intro hm
      obtain ⟨e', he', e1⟩ := List.mem_map.1 hm
      obtain ⟨he', hj'⟩ := List.mem_filter.1 he'
      have : e' = e := keys_inj hs he' he e1
      exact hj (this ▸ hj')
  · rw [hbit, Nat.zero_testBit, decide_eq_false_iff_not]
    intro hm
    obtain ⟨e', he', e1⟩ := List.mem_map.1 hm
    exact hc e' (List.mem_filter.1 he').1 e1

end Verif.Rw
