import Verif.Model.Rows
import Verif.Lemmas.Bitmap
import Mathlib.Tactic.Tauto
/-!
# Facts about rows
-/
namespace Verif

theorem Bm.mem_diff {a b : Bm} {z : Nat} : z ∈ a.diff b ↔ z ∈ a ∧ z ∉ b := by simp [Bm.diff]

theorem Bm.diff_ok {a b : Bm} (h : a.Ok) : (a.diff b).Ok := List.Pairwise.filter _ h

theorem Bm.mem_xor {a b : Bm} {z : Nat} : z ∈ a.xor b ↔ (z ∈ a ∧ z ∉ b) ∨ (z ∈ b ∧ z ∉ a) := by
  simp [Bm.xor, Bm.mem_or, Bm.mem_diff]

theorem Bm.xor_ok {a b : Bm} (h : a.Ok) : (a.xor b).Ok := Bm.or_ok (Bm.diff_ok h)

theorem Bm.mem_foldl_add {l : List Nat} {b : Bm} {z : Nat} : z ∈ l.foldl Bm.add b ↔ z ∈ b ∨ z ∈ l := Bm.mem_or (b := l)

theorem Bm.foldl_add_ok {l : List Nat} {b : Bm} (h : b.Ok) : (l.foldl Bm.add b).Ok := Bm.or_ok (b := l) h

theorem Bm.nil_ok : Bm.Ok [] := List.Pairwise.nil

theorem Bm.length_add {b : Bm} {x : Nat} (h : x ∉ b) : (b.add x).length = b.length + 1 := by
  induction b with
  | nil => simp [Bm.add]
  | cons y ys ih =>
    unfold Bm.add
    split
    · simp
    · split
      · rename_i h'; subst h'; simp at h
      · simp at h; simp [ih h.2]

namespace Rw
open Bt (shardWidth)

/-- Every bitmap is ascending and within one shard. -/
def HOk (own : Nat → Nat) (h : Heap) : Prop := ∀ p, Bm.Ok (rd h p) ∧ ∀ x ∈ rd h p, x / shardWidth = own p

/-- Segments ascending by shard, over allocated bitmaps of that shard. -/
def ROk (own : Nat → Nat) (h : Heap) (r : Row) : Prop :=
  r.Pairwise (fun a b => a.shard < b.shard) ∧ ∀ s ∈ r, s.data < h.length ∧ own s.data = s.shard

def Ext (own : Nat → Nat) (h : Heap) (own' : Nat → Nat) (h' : Heap) : Prop :=
  h.length ≤ h'.length ∧ ∀ p, p < h.length → own' p = own p

theorem Ext.refl (own h) : Ext own h own h := ⟨Nat.le_refl _, fun _ _ => rfl⟩

theorem Ext.trans {o h o' h' o'' h''} (a : Ext o h o' h') (b : Ext o' h' o'' h'') : Ext o h o'' h'' :=
  ⟨Nat.le_trans a.1 b.1, fun p hp => (b.2 p (Nat.lt_of_lt_of_le hp a.1)).trans (a.2 p hp)⟩

theorem ROk.ext {own h own' h' r} (hr : ROk own h r) (e : Ext own h own' h') : ROk own' h' r :=
  ⟨hr.1, fun s hs => ⟨Nat.lt_of_lt_of_le (hr.2 s hs).1 e.1, (e.2 _ (hr.2 s hs).1).trans (hr.2 s hs).2⟩⟩

theorem rd_append {h t : Heap} {p : Nat} (hp : p < h.length) : rd (h ++ t) p = rd h p := by
  simp [rd, List.getD_eq_getElem?_getD, List.getElem?_append_left hp]

theorem rd_new (h : Heap) (b : Bm) : rd (h ++ [b]) h.length = b := by simp [rd, List.getD_eq_getElem?_getD]

theorem rd_out {h : Heap} {p : Nat} (hp : h.length ≤ p) : rd h p = [] := by
  simp [rd, List.getD_eq_getElem?_getD, List.getElem?_eq_none hp]

theorem rd_set {h : Heap} {p q : Nat} {b : Bm} (hp : p < h.length) : rd (h.set p b) q = if p = q then b else rd h q := by
  by_cases e : p = q
  · subst e; simp [rd, List.getD_eq_getElem?_getD, hp]
  · simp [rd, List.getD_eq_getElem?_getD, e]

theorem alloc_ok {own h} (hh : HOk own h) {b : Bm} {k : Nat} (hb : b.Ok) (hk : ∀ x ∈ b, x / shardWidth = k) :
    ∃ own', Ext own h own' (h ++ [b]) ∧ HOk own' (h ++ [b]) ∧ own' h.length = k := by
  refine ⟨fun p => if p = h.length then k else own p, ⟨by simp, fun p hp => ?_⟩, fun p => ?_, by simp⟩
  · have : p ≠ h.length := by omega
    simp [this]
  · by_cases e : p = h.length
    · subst e; simp only [rd_new, if_true]; exact ⟨hb, hk⟩
    · by_cases e' : p < h.length
      · simp only [rd_append e', e, if_false]; exact hh p
      · rw [rd_out (by simp; omega)]; exact ⟨Bm.nil_ok, by simp⟩

theorem mem_columns {h : Heap} {r : Row} {x : Nat} : x ∈ columns h r ↔ ∃ s ∈ r, x ∈ rd h s.data := by
  simp [columns]

theorem shard_unique {own h r} (hr : ROk own h r) {s t : Seg} (hs : s ∈ r) (ht : t ∈ r) (e : s.shard = t.shard) : s = t := by
  have hp := hr.1
  clear hr
  induction r with
  | nil => cases hs
  | cons a r ih =>
    rw [List.pairwise_cons] at hp
    rcases List.mem_cons.1 hs with e1 | hs' <;> rcases List.mem_cons.1 ht with e2 | ht'
    · rw [e1, e2]
    · have := hp.1 t ht'; subst e1; omega
    · have := hp.1 s hs'; subst e2; omega
    · exact ih hs' ht' hp.2

/-- The bitmap of a segment of a proper row lies in the segment's shard. -/
theorem seg_bits {own h r} (hh : HOk own h) (hr : ROk own h r) {s : Seg} (hs : s ∈ r) {x : Nat} (hx : x ∈ rd h s.data) :
    x / shardWidth = s.shard := ((hh s.data).2 x hx).trans (hr.2 s hs).2

/-! ## Operations that only allocate -/

/-- What an operation puts into its result: an operand's segment as it is, or a new bitmap. -/
inductive Item where
  | keep (s : Seg)
  | mk (k : Nat) (b : Bm) (wr : Bool) (n : Nat)

def Item.shard : Item → Nat
  | .keep s => s.shard
  | .mk k _ _ _ => k

def Item.bits (h : Heap) : Item → Bm
  | .keep s => rd h s.data
  | .mk _ b _ _ => b

def Item.Ok (own : Nat → Nat) (h : Heap) : Item → Prop
  | .keep s => s.data < h.length ∧ own s.data = s.shard
  | .mk k b _ _ => b.Ok ∧ ∀ x ∈ b, x / shardWidth = k

def build : Heap → List Item → Heap × Row
  | h, [] => (h, [])
  | h, .keep s :: t => let w := build h t; (w.1, s :: w.2)
  | h, .mk k b wr n :: t =>
    let w := build (h ++ [b]) t
    (w.1, { shard := k, data := h.length, writable := wr, n := n } :: w.2)

theorem Item.Ok.ext {own h own' h'} {i : Item} (hi : i.Ok own h) (e : Ext own h own' h') : i.Ok own' h' := by
  cases i with
  | keep s => exact ⟨Nat.lt_of_lt_of_le hi.1 e.1, (e.2 _ hi.1).trans hi.2⟩
  | mk k b wr n => exact hi

/-- Where a segment of the result comes from. -/
def From (h h' : Heap) (items : List Item) (s : Seg) : Prop :=
  Item.keep s ∈ items ∨ ∃ b, Item.mk s.shard b s.writable s.n ∈ items ∧ h.length ≤ s.data ∧ rd h' s.data = b

theorem build_spec {own h} (items : List Item) (hh : HOk own h) (hs : items.Pairwise (fun a b => a.shard < b.shard))
    (hi : ∀ i ∈ items, i.Ok own h) :
    ∃ own' t, (build h items).1 = h ++ t ∧ Ext own h own' (h ++ t) ∧ HOk own' (h ++ t) ∧ ROk own' (h ++ t) (build h items).2 ∧
      columns (h ++ t) (build h items).2 = items.flatMap (Item.bits h) ∧
      (build h items).2.map (·.shard) = items.map Item.shard ∧
      ∀ s ∈ (build h items).2, From h (h ++ t) items s := by
  induction items generalizing own h with
  | nil =>
    refine ⟨own, [], by simp [build], ?_⟩
    simp only [List.append_nil]
    exact ⟨Ext.refl _ _, hh, ⟨List.Pairwise.nil, by simp [build]⟩, by simp [build, columns], by simp [build], by simp [build]⟩
  | cons i t ih =>
    rw [List.pairwise_cons] at hs
    cases i with
    | keep s =>
      obtain ⟨own', u, h1, h2, h3, h4, h5, h6, h7⟩ := ih hh hs.2 (fun i hi' => hi i (List.mem_cons_of_mem _ hi'))
      have hk := hi (.keep s) (by simp)
      refine ⟨own', u, h1, h2, h3, ⟨?_, ?_⟩, ?_, ?_, ?_⟩
      · simp only [build]
        refine List.pairwise_cons.2 ⟨fun a ha => ?_, h4.1⟩
        have : a.shard ∈ (build h t).2.map (·.shard) := List.mem_map.2 ⟨a, ha, rfl⟩
        rw [h6] at this
        obtain ⟨j, hj, e⟩ := List.mem_map.1 this
        have := hs.1 j hj
        simp only [Item.shard] at this e
        omega
      · intro a ha
        rcases List.mem_cons.1 ha with rfl | ha
        · exact ⟨Nat.lt_of_lt_of_le hk.1 h2.1, (h2.2 _ hk.1).trans hk.2⟩
        · exact h4.2 a ha
      · simp only [build, columns, List.flatMap_cons] at *
        rw [h5, rd_append hk.1]; rfl
      · simp only [build, List.map_cons, h6, Item.shard]
      · intro a ha
        rcases List.mem_cons.1 ha with rfl | ha
        · exact Or.inl (by simp)
        · rcases h7 a ha with h | ⟨b, hb, h⟩
          · exact Or.inl (List.mem_cons_of_mem _ h)
          · exact Or.inr ⟨b, List.mem_cons_of_mem _ hb, h⟩
    | mk k b wr n =>
      have hk := hi (.mk k b wr n) (by simp)
      obtain ⟨own1, e1, hh1, ok1⟩ := alloc_ok hh hk.1 hk.2
      obtain ⟨own', u, h1, h2, h3, h4, h5, h6, h7⟩ := ih hh1 hs.2
        (fun i hi' => (hi i (List.mem_cons_of_mem _ hi')).ext e1)
      have hlt : h.length < (h ++ [b]).length := by simp
      refine ⟨own', [b] ++ u, ?_, ?_, ?_, ⟨?_, ?_⟩, ?_, ?_, ?_⟩
      · simp only [build]; rw [h1, List.append_assoc]
      · rw [← List.append_assoc]; exact e1.trans h2
      · rw [← List.append_assoc]; exact h3
      · simp only [build]
        refine List.pairwise_cons.2 ⟨fun a ha => ?_, h4.1⟩
        have : a.shard ∈ (build (h ++ [b]) t).2.map (·.shard) := List.mem_map.2 ⟨a, ha, rfl⟩
        rw [h6] at this
        obtain ⟨j, hj, e⟩ := List.mem_map.1 this
        have := hs.1 j hj
        simp only [Item.shard] at this e
        show k < a.shard
        omega
      · rw [← List.append_assoc]
        intro a ha
        rcases List.mem_cons.1 ha with rfl | ha
        · exact ⟨Nat.lt_of_lt_of_le hlt h2.1, (h2.2 _ hlt).trans ok1⟩
        · exact h4.2 a ha
      · rw [← List.append_assoc]
        simp only [build, columns, List.flatMap_cons] at *
        rw [h5]
        rw [rd_append hlt, rd_new]
        congr 1
        rw [List.flatMap_def, List.flatMap_def]
        congr 1
        refine List.map_congr_left fun j hj => ?_
        have := hi j (List.mem_cons_of_mem _ hj)
        cases j with
        | keep s => simp only [Item.bits]; exact rd_append this.1
        | mk _ _ _ _ => rfl
      · simp only [build, List.map_cons, h6, Item.shard]
      · rw [← List.append_assoc]
        intro a ha
        rcases List.mem_cons.1 ha with rfl | ha
        · exact Or.inr ⟨b, by simp, Nat.le_refl _, by rw [rd_append hlt, rd_new]⟩
        · rcases h7 a ha with h | ⟨b', hb, hl, hr⟩
          · exact Or.inl (List.mem_cons_of_mem _ h)
          · exact Or.inr ⟨b', List.mem_cons_of_mem _ hb, by simp at hl; omega, hr⟩

/-! ## The two-row iterator -/

def pkey : Option Seg × Option Seg → Nat
  | (some s, _) => s.shard
  | (none, some s) => s.shard
  | (none, none) => 0

/-- A segment returned without a partner. -/
def Alone (s : Seg) (ps : List (Option Seg × Option Seg)) : Prop := (some s, none) ∈ ps ∨ (none, some s) ∈ ps

abbrev Sorted (r : Row) : Prop := r.Pairwise (fun a b => a.shard < b.shard)

theorem pairs_keys {f : Nat} : ∀ {a0 a1 : Row}, a0.length + a1.length ≤ f → ∀ q ∈ pairs f a0 a1,
    (∃ s, (s ∈ a0 ∨ s ∈ a1) ∧ pkey q = s.shard) ∧ q ≠ (none, none) := by
  induction f with
  | zero => intro a0 a1 _ q hq; simp [pairs] at hq
  | succ f ih =>
    intro a0 a1 hl q hq
    cases a0 with
    | nil =>
      cases a1 with
      | nil => simp [pairs] at hq
      | cons s1 a1 =>
        simp only [pairs, List.mem_cons] at hq
        rcases hq with rfl | hq
        · exact ⟨⟨s1, by simp, rfl⟩, by simp⟩
        · obtain ⟨⟨s, hs, e⟩, hn⟩ := ih (by simp at *; omega) q hq
          exact ⟨⟨s, by simp at *; simp [hs], e⟩, hn⟩
    | cons s0 a0 =>
      cases a1 with
      | nil =>
        simp only [pairs, List.mem_cons] at hq
        rcases hq with rfl | hq
        · exact ⟨⟨s0, by simp, rfl⟩, by simp⟩
        · obtain ⟨⟨s, hs, e⟩, hn⟩ := ih (by simp at *; omega) q hq
          exact ⟨⟨s, by simp at *; simp [hs], e⟩, hn⟩
      | cons s1 a1 =>
        simp only [pairs] at hq
        split at hq
        · rcases List.mem_cons.1 hq with rfl | hq
          · exact ⟨⟨s0, by simp, rfl⟩, by simp⟩
          · obtain ⟨⟨s, hs, e⟩, hn⟩ := ih (by simp at *; omega) q hq
            exact ⟨⟨s, by simp at *; tauto, e⟩, hn⟩
        · split at hq
          · rcases List.mem_cons.1 hq with rfl | hq
            · exact ⟨⟨s1, by simp, rfl⟩, by simp⟩
            · obtain ⟨⟨s, hs, e⟩, hn⟩ := ih (by simp at *; omega) q hq
              exact ⟨⟨s, by simp at *; tauto, e⟩, hn⟩
          · rcases List.mem_cons.1 hq with rfl | hq
            · exact ⟨⟨s0, by simp, rfl⟩, by simp⟩
            · obtain ⟨⟨s, hs, e⟩, hn⟩ := ih (by simp at *; omega) q hq
              exact ⟨⟨s, by simp at *; tauto, e⟩, hn⟩

theorem pairs_sorted {f : Nat} : ∀ {a0 a1 : Row}, a0.length + a1.length ≤ f → Sorted a0 → Sorted a1 →
    (pairs f a0 a1).Pairwise (fun p q => pkey p < pkey q) := by
  induction f with
  | zero => intro a0 a1 _ _ _; exact List.Pairwise.nil
  | succ f ih =>
    intro a0 a1 hl h0 h1
    cases a0 with
    | nil =>
      cases a1 with
      | nil => exact List.Pairwise.nil
      | cons s1 a1 =>
        have hl' : ([] : Row).length + a1.length ≤ f := by simp at *; omega
        refine List.pairwise_cons.2 ⟨fun q hq => ?_, ih hl' h0 (List.pairwise_cons.1 h1).2⟩
        obtain ⟨⟨s, hs, e⟩, _⟩ := pairs_keys hl' q hq
        rw [e]; simp at hs; exact (List.pairwise_cons.1 h1).1 s hs
    | cons s0 a0 =>
      cases a1 with
      | nil =>
        have hl' : a0.length + ([] : Row).length ≤ f := by simp at *; omega
        refine List.pairwise_cons.2 ⟨fun q hq => ?_, ih hl' (List.pairwise_cons.1 h0).2 h1⟩
        obtain ⟨⟨s, hs, e⟩, _⟩ := pairs_keys hl' q hq
        rw [e]; simp at hs; exact (List.pairwise_cons.1 h0).1 s hs
      | cons s1 a1 =>
        have p0 := List.pairwise_cons.1 h0
        have p1 := List.pairwise_cons.1 h1
        simp only [pairs]
        split
        · rename_i hlt
          have hl' : a0.length + (s1 :: a1).length ≤ f := by simp at *; omega
          refine List.pairwise_cons.2 ⟨fun q hq => ?_, ih hl' p0.2 h1⟩
          obtain ⟨⟨s, hs, e⟩, _⟩ := pairs_keys hl' q hq
          rw [e]; show s0.shard < _
          rcases hs with hs | hs
          · exact p0.1 s hs
          · rcases List.mem_cons.1 hs with rfl | hs
            · exact hlt
            · have := p1.1 s hs; omega
        · split
          · rename_i hlt
            have hl' : (s0 :: a0).length + a1.length ≤ f := by simp at *; omega
            refine List.pairwise_cons.2 ⟨fun q hq => ?_, ih hl' h0 p1.2⟩
            obtain ⟨⟨s, hs, e⟩, _⟩ := pairs_keys hl' q hq
            rw [e]; show s1.shard < _
            rcases hs with hs | hs
            · rcases List.mem_cons.1 hs with rfl | hs
              · exact hlt
              · have := p0.1 s hs; omega
            · exact p1.1 s hs
          · have hl' : a0.length + a1.length ≤ f := by simp at *; omega
            refine List.pairwise_cons.2 ⟨fun q hq => ?_, ih hl' p0.2 p1.2⟩
            obtain ⟨⟨s, hs, e⟩, _⟩ := pairs_keys hl' q hq
            rw [e]; show s0.shard < _
            rcases hs with hs | hs
            · exact p0.1 s hs
            · have := p1.1 s hs; omega

theorem pairs_both {f : Nat} : ∀ {a0 a1 : Row}, a0.length + a1.length ≤ f → Sorted a0 → Sorted a1 → ∀ s t,
    (some s, some t) ∈ pairs f a0 a1 ↔ s ∈ a0 ∧ t ∈ a1 ∧ s.shard = t.shard := by
  induction f with
  | zero =>
    intro a0 a1 hl _ _ s t
    have : a0 = [] := List.eq_nil_of_length_eq_zero (by omega)
    simp [pairs, this]
  | succ f ih =>
    intro a0 a1 hl h0 h1 s t
    cases a0 with
    | nil =>
      cases a1 with
      | nil => simp [pairs]
      | cons s1 a1 =>
        have hl' : ([] : Row).length + a1.length ≤ f := by simp at *; omega
        simp only [pairs, List.mem_cons, ih hl' h0 (List.pairwise_cons.1 h1).2]
        simp
    | cons s0 a0 =>
      cases a1 with
      | nil =>
        have hl' : a0.length + ([] : Row).length ≤ f := by simp at *; omega
        simp only [pairs, List.mem_cons, ih hl' (List.pairwise_cons.1 h0).2 h1]
        simp
      | cons s1 a1 =>
        have p0 := List.pairwise_cons.1 h0
        have p1 := List.pairwise_cons.1 h1
        simp only [pairs]
        split
        · rename_i hlt
          have hl' : a0.length + (s1 :: a1).length ≤ f := by simp at *; omega
          rw [List.mem_cons, ih hl' p0.2 h1]
          constructor
          · rintro (h | ⟨h, h'⟩)
            · simp at h
            · exact ⟨List.mem_cons_of_mem _ h, h'⟩
          · rintro ⟨h, h', e⟩
            rcases List.mem_cons.1 h with rfl | h
            · exfalso
              rcases List.mem_cons.1 h' with rfl | h'
              · omega
              · have := p1.1 t h'; omega
            · exact Or.inr ⟨h, h', e⟩
        · split
          · rename_i hlt
            have hl' : (s0 :: a0).length + a1.length ≤ f := by simp at *; omega
            rw [List.mem_cons, ih hl' h0 p1.2]
            constructor
            · rintro (h | ⟨h, h', e⟩)
              · simp at h
              · exact ⟨h, List.mem_cons_of_mem _ h', e⟩
            · rintro ⟨h, h', e⟩
              rcases List.mem_cons.1 h' with rfl | h'
              · exfalso
                rcases List.mem_cons.1 h with rfl | h
                · omega
                · have := p0.1 s h; omega
              · exact Or.inr ⟨h, h', e⟩
          · have hl' : a0.length + a1.length ≤ f := by simp at *; omega
            have heq : s0.shard = s1.shard := by omega
            rw [List.mem_cons, ih hl' p0.2 p1.2]
            constructor
            · rintro (h | ⟨h, h', e⟩)
              · simp at h; obtain ⟨rfl, rfl⟩ := h; exact ⟨by simp, by simp, heq⟩
              · exact ⟨List.mem_cons_of_mem _ h, List.mem_cons_of_mem _ h', e⟩
            · rintro ⟨h, h', e⟩
              rcases List.mem_cons.1 h with rfl | h <;> rcases List.mem_cons.1 h' with rfl | h'
              · exact Or.inl rfl
              · have := p1.1 t h'; omega
              · have := p0.1 s h; omega
              · exact Or.inr ⟨h, h', e⟩

theorem pairs_alone {f : Nat} : ∀ {a0 a1 : Row}, a0.length + a1.length ≤ f → Sorted a0 → Sorted a1 → ∀ s,
    Alone s (pairs f a0 a1) ↔
      (s ∈ a0 ∧ ∀ t ∈ a1, t.shard ≠ s.shard) ∨ (s ∈ a1 ∧ ∀ t ∈ a0, t.shard ≠ s.shard) := by
  induction f with
  | zero =>
    intro a0 a1 hl _ _ s
    have e0 : a0 = [] := List.eq_nil_of_length_eq_zero (by omega)
    have e1 : a1 = [] := List.eq_nil_of_length_eq_zero (by omega)
    simp [pairs, Alone, e0, e1]
  | succ f ih =>
    intro a0 a1 hl h0 h1 s
    cases a0 with
    | nil =>
      cases a1 with
      | nil => simp [pairs, Alone]
      | cons s1 a1 =>
        have hl' : ([] : Row).length + a1.length ≤ f := by simp at *; omega
        have := ih hl' h0 (List.pairwise_cons.1 h1).2 s
        simp only [Alone, pairs, List.mem_cons] at *
        simp at *
        tauto
    | cons s0 a0 =>
      cases a1 with
      | nil =>
        have hl' : a0.length + ([] : Row).length ≤ f := by simp at *; omega
        have := ih hl' (List.pairwise_cons.1 h0).2 h1 s
        simp only [Alone, pairs, List.mem_cons] at *
        simp at *
        tauto
      | cons s1 a1 =>
        have p0 := List.pairwise_cons.1 h0
        have p1 := List.pairwise_cons.1 h1
        simp only [pairs]
        split
        · rename_i hlt
          have hl' : a0.length + (s1 :: a1).length ≤ f := by simp at *; omega
          have hi := ih hl' p0.2 h1 s
          have : Alone s ((some s0, none) :: pairs f a0 (s1 :: a1)) ↔ s = s0 ∨ Alone s (pairs f a0 (s1 :: a1)) := by
            simp [Alone]; tauto
          rw [this, hi]
          constructor
          · rintro (rfl | ⟨h, h'⟩ | ⟨h, h'⟩)
            · refine Or.inl ⟨by simp, fun t ht => ?_⟩
              rcases List.mem_cons.1 ht with rfl | ht
              · omega
              · have := p1.1 t ht; omega
            · exact Or.inl ⟨List.mem_cons_of_mem _ h, h'⟩
            · refine Or.inr ⟨h, fun t ht => ?_⟩
              rcases List.mem_cons.1 ht with rfl | ht
              · rcases List.mem_cons.1 h with rfl | h
                · omega
                · have := p1.1 s h; omega
              · exact h' t ht
          · rintro (⟨h, h'⟩ | ⟨h, h'⟩)
            · rcases List.mem_cons.1 h with rfl | h
              · exact Or.inl rfl
              · exact Or.inr (Or.inl ⟨h, h'⟩)
            · exact Or.inr (Or.inr ⟨h, fun t ht => h' t (List.mem_cons_of_mem _ ht)⟩)
        · split
          · rename_i hlt
            have hl' : (s0 :: a0).length + a1.length ≤ f := by simp at *; omega
            have hi := ih hl' h0 p1.2 s
            have : Alone s ((some s1, none) :: pairs f (s0 :: a0) a1) ↔ s = s1 ∨ Alone s (pairs f (s0 :: a0) a1) := by
              simp [Alone]; tauto
            rw [this, hi]
            constructor
            · rintro (rfl | ⟨h, h'⟩ | ⟨h, h'⟩)
              · refine Or.inr ⟨by simp, fun t ht => ?_⟩
                rcases List.mem_cons.1 ht with rfl | ht
                · omega
                · have := p0.1 t ht; omega
              · refine Or.inl ⟨h, fun t ht => ?_⟩
                rcases List.mem_cons.1 ht with rfl | ht
                · rcases List.mem_cons.1 h with rfl | h
                  · omega
                  · have := p0.1 s h; omega
                · exact h' t ht
              · exact Or.inr ⟨List.mem_cons_of_mem _ h, h'⟩
            · rintro (⟨h, h'⟩ | ⟨h, h'⟩)
              · exact Or.inr (Or.inl ⟨h, fun t ht => h' t (List.mem_cons_of_mem _ ht)⟩)
              · rcases List.mem_cons.1 h with rfl | h
                · exact Or.inl rfl
                · exact Or.inr (Or.inr ⟨h, h'⟩)
          · have hl' : a0.length + a1.length ≤ f := by simp at *; omega
            have heq : s0.shard = s1.shard := by omega
            have hi := ih hl' p0.2 p1.2 s
            have : Alone s ((some s0, some s1) :: pairs f a0 a1) ↔ Alone s (pairs f a0 a1) := by simp [Alone]
            rw [this, hi]
            constructor
            · rintro (⟨h, h'⟩ | ⟨h, h'⟩)
              · refine Or.inl ⟨List.mem_cons_of_mem _ h, fun t ht => ?_⟩
                rcases List.mem_cons.1 ht with rfl | ht
                · have := p0.1 s h; omega
                · exact h' t ht
              · refine Or.inr ⟨List.mem_cons_of_mem _ h, fun t ht => ?_⟩
                rcases List.mem_cons.1 ht with rfl | ht
                · have := p1.1 s h; omega
                · exact h' t ht
            · rintro (⟨h, h'⟩ | ⟨h, h'⟩)
              · rcases List.mem_cons.1 h with rfl | h
                · exact absurd heq.symm (h' s1 (by simp))
                · exact Or.inl ⟨h, fun t ht => h' t (List.mem_cons_of_mem _ ht)⟩
              · rcases List.mem_cons.1 h with rfl | h
                · exact absurd heq (h' s0 (by simp))
                · exact Or.inr ⟨h, fun t ht => h' t (List.mem_cons_of_mem _ ht)⟩

theorem itr_both {a0 a1 : Row} (h0 : Sorted a0) (h1 : Sorted a1) (s t : Seg) :
    (some s, some t) ∈ itr a0 a1 ↔ s ∈ a0 ∧ t ∈ a1 ∧ s.shard = t.shard := pairs_both (Nat.le_refl _) h0 h1 s t

theorem itr_alone {a0 a1 : Row} (h0 : Sorted a0) (h1 : Sorted a1) (s : Seg) :
    Alone s (itr a0 a1) ↔
      (s ∈ a0 ∧ ∀ t ∈ a1, t.shard ≠ s.shard) ∨ (s ∈ a1 ∧ ∀ t ∈ a0, t.shard ≠ s.shard) :=
  pairs_alone (Nat.le_refl _) h0 h1 s

theorem itr_sorted {a0 a1 : Row} (h0 : Sorted a0) (h1 : Sorted a1) :
    (itr a0 a1).Pairwise (fun p q => pkey p < pkey q) := pairs_sorted (Nat.le_refl _) h0 h1

theorem itr_some {a0 a1 : Row} {q} (hq : q ∈ itr a0 a1) : q ≠ (none, none) := (pairs_keys (Nat.le_refl _) q hq).2

end Rw
end Verif
