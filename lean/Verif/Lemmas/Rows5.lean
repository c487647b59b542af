import Verif.Lemmas.Rows4
/-!
# Invariants of programs over rows
-/
namespace Verif.Rw
open Bt (shardWidth)

def WOk (own : Nat → Nat) (w : World) : Prop := HOk own w.heap ∧ ∀ r ∈ w.rows, ROk own w.heap r

def WInv (w : World) : Prop := ∃ own, WOk own w

theorem row_ok {own w} (h : WOk own w) (i : Nat) : ROk own w.heap (w.row i) := by
  unfold World.row
  rw [List.getD_eq_getElem?_getD]
  cases hg : w.rows[i]? with
  | none => exact ⟨List.Pairwise.nil, by simp⟩
  | some r => exact h.2 r (List.mem_of_getElem? hg)

theorem row_push (w : World) (p : Heap × Row) (j : Nat) :
    (w.push p).row j = if j = w.rows.length then p.2 else w.row j := by
  unfold World.row World.push
  simp only [List.getD_eq_getElem?_getD]
  by_cases h : j < w.rows.length
  · rw [List.getElem?_append_left h, if_neg (by omega)]
  · by_cases h' : j = w.rows.length
    · subst h'; simp
    · rw [if_neg h', List.getElem?_eq_none (by simp; omega), List.getElem?_eq_none (by omega)]

theorem row_put (w : World) (i : Nat) (p : Heap × Row) (j : Nat) :
    (w.put i p).row j = if j = i ∧ i < w.rows.length then p.2 else w.row j := by
  unfold World.row World.put
  simp only [List.getD_eq_getElem?_getD, List.getElem?_set]
  by_cases h : i = j
  · subst h
    by_cases h' : i < w.rows.length
    · simp [h']
    · simp [h']
  · rw [if_neg h, if_neg (fun hc => h hc.1.symm)]

/-- An operation that only builds a new row. -/
structure Pushes (own : Nat → Nat) (w : World) (p : Heap × Row) (items : List Item) : Prop where
  eq : p = build w.heap items
  sorted : items.Pairwise (fun a b => a.shard < b.shard)
  ok : ∀ i ∈ items, i.Ok own w.heap

theorem push_spec {own w p items} (h : WOk own w) (hp : Pushes own w p items) :
    ∃ own' t, p.1 = w.heap ++ t ∧ Ext own w.heap own' p.1 ∧ WOk own' (w.push p) ∧
      columns p.1 p.2 = items.flatMap (Item.bits w.heap) ∧ (∀ s ∈ p.2, From w.heap p.1 items s) := by
  obtain ⟨own', t, h1, h2, h3, h4, h5, _, h7⟩ := build_spec items h.1 hp.sorted hp.ok
  rw [← hp.eq] at *
  refine ⟨own', t, h1, by rw [h1]; exact h2, ⟨by show HOk own' p.1; rw [h1]; exact h3, ?_⟩, by rw [h1]; exact h5, by rw [h1]; exact h7⟩
  intro r hr
  show ROk own' p.1 r
  rw [h1]
  rcases List.mem_append.1 hr with hr | hr
  · exact (h.2 r hr).ext h2
  · simp at hr; subst hr; exact h4

/-- Rows not in the target position keep their columns when only new bitmaps were allocated. -/
theorem columns_append {own h r} (hr : ROk own h r) (t : Heap) : columns (h ++ t) r = columns h r := by
  simp only [columns, List.flatMap_def]
  congr 1
  exact List.map_congr_left fun s hs => rd_append (hr.2 s hs).1

theorem newRow_spec {own h r} (cols : List Nat) (hh : HOk own h) (hr : ROk own h r) :
    ∃ own', Ext own h own' (newRow h r cols).1 ∧ HOk own' (newRow h r cols).1 ∧ ROk own' (newRow h r cols).1 (newRow h r cols).2 ∧
      (∀ x, x ∈ columns (newRow h r cols).1 (newRow h r cols).2 ↔ x ∈ cols ∨ x ∈ columns h r) ∧
      (∀ p, p < h.length → (∀ s ∈ r, s.data ≠ p) → rd (newRow h r cols).1 p = rd h p) ∧
      (∀ s ∈ (newRow h r cols).2, s ∈ r ∨ h.length ≤ s.data ∨ ∃ s' ∈ r, s'.data = s.data) ∧
      ((∀ s ∈ r, s.n = (rd h s.data).length) →
        ∀ s ∈ (newRow h r cols).2, s.n = (rd (newRow h r cols).1 s.data).length) := by
  induction cols generalizing own h r with
  | nil => exact ⟨own, Ext.refl _ _, hh, hr, by simp [newRow], fun _ _ _ => rfl, fun s hs => Or.inl hs, id⟩
  | cons c cs ih =>
    obtain ⟨⟨own1, sp⟩, _⟩ := setBit_spec c hh hr
    obtain ⟨own2, i1, i2, i3, i4, i5, i6, i7⟩ := ih sp.hok sp.rok
    simp only [newRow]
    have hback : ∀ s ∈ (setBit h c r).2.1, h.length ≤ s.data ∨ ∃ s' ∈ r, s'.data = s.data := by
      intro s hs
      rcases sp.shape s hs with ⟨h1, _⟩ | ⟨_, _, h1 | ⟨u, hu, _, e, _⟩⟩
      · exact Or.inr ⟨s, h1, rfl⟩
      · exact Or.inl h1
      · exact Or.inr ⟨u, hu, e⟩
    refine ⟨own2, sp.ext.trans i1, i2, i3, fun x => ?_, fun p hp hn => ?_, fun s hs => ?_, fun hc => i7 (sp.cnt hc)⟩
    · rw [i4, sp.mem, List.mem_cons]; tauto
    · rw [i5 p (Nat.lt_of_lt_of_le hp sp.ext.1) ?_]
      · refine sp.frame p hp ?_
        rintro ⟨s, hs, _, e, _⟩; exact hn s hs e
      · intro s hs e
        rcases hback s hs with h1 | ⟨u, hu, h1⟩
        · omega
        · exact hn u hu (h1.trans e)
    · rcases i6 s hs with h1 | h1 | ⟨u, hu, h1⟩
      · rcases hback s h1 with h2 | h2
        · exact Or.inr (Or.inl h2)
        · exact Or.inr (Or.inr h2)
      · exact Or.inr (Or.inl (Nat.le_trans sp.ext.1 h1))
      · rcases hback u hu with h2 | ⟨v, hv, h2⟩
        · exact Or.inr (Or.inl (h1 ▸ h2))
        · exact Or.inr (Or.inr ⟨v, hv, h2.trans h1⟩)

theorem ofShard_build (h : Heap) (k : Nat) (offs : List Nat) :
    let b := (offs.map fun o => k * shardWidth + o % shardWidth).foldl Bm.add []
    ofShard h k offs = build h [.mk k b true b.length] ∧
    (∀ own, Item.Ok own h (.mk k b true b.length)) ∧
    (∀ x, x ∈ b ↔ ∃ o ∈ offs, x = k * shardWidth + o % shardWidth) := by
  refine ⟨rfl, fun own => ⟨Bm.foldl_add_ok Bm.nil_ok, fun x hx => ?_⟩, fun x => ?_⟩
  · rw [Bm.mem_foldl_add] at hx
    simp at hx
    obtain ⟨o, _, rfl⟩ := hx
    have : o % shardWidth < shardWidth := Nat.mod_lt _ (by decide)
    rw [Nat.mul_comm, Nat.mul_add_div (by decide), Nat.div_eq_of_lt this, Nat.add_zero]
  · rw [Bm.mem_foldl_add]; simp [eq_comm]

theorem put_ok {own own' w i p} (h : WOk own w) (e : Ext own w.heap own' p.1) (hk : HOk own' p.1) (hr : ROk own' p.1 p.2) :
    WOk own' (w.put i p) := by
  refine ⟨hk, fun r hr' => ?_⟩
  rcases List.mem_or_eq_of_mem_set hr' with h1 | h1
  · exact (h.2 r h1).ext e
  · exact h1 ▸ hr

theorem map_row_ok {own w} (h : WOk own w) (js : List Nat) : ∀ o ∈ js.map w.row, ROk own w.heap o := by
  intro o ho
  obtain ⟨j, _, rfl⟩ := List.mem_map.1 ho
  exact row_ok h j

/-- The operations that build a new row, and what they build it from. -/
theorem pushes {own w} (h : WOk own w) : ∀ op : Op, op.target = none → (∀ cols, op ≠ .new cols) → (∀ i j, op ≠ .absorb i j) →
    ∃ p items, step w op = w.push p ∧ Pushes own w p items ∧
      (∀ s, Item.keep s ∈ items → ∃ k, s ∈ w.row k) ∧
      (Safe w op → ∀ s, Item.keep s ∈ items → s.writable = false) ∧
      (∀ k b wr n, Item.mk k b wr n ∈ items → n = b.length ∨ ∃ i, ∃ s ∈ w.row i, n = s.n ∧ b = rd w.heap s.data) := by
  intro op ht hnew habs
  cases op with
  | new cols => exact absurd rfl (hnew cols)
  | setBit i c => cases ht
  | merge i j => cases ht
  | absorb i j => exact absurd rfl (habs i j)
  | bitmap bits =>
    obtain ⟨h1, h2, _⟩ := fromBitmap_build (own := own) (h := w.heap) bits
    refine ⟨_, _, rfl, ⟨fromBitmap_eq _ _ _, h1, h2⟩, ?_, ?_, ?_⟩
    · intro s hs; obtain ⟨_, _, e⟩ := List.mem_map.1 hs; cases e
    · intro _ s hs; obtain ⟨_, _, e⟩ := List.mem_map.1 hs; cases e
    · intro k b wr n hm; obtain ⟨_, _, e⟩ := List.mem_map.1 hm; cases e; exact Or.inl rfl
  | shard k offs =>
    obtain ⟨h1, h2, _⟩ := ofShard_build w.heap k offs
    refine ⟨_, _, rfl, ⟨h1, by simp, ?_⟩, ?_, ?_, ?_⟩
    · intro i hi; simp only [List.mem_singleton] at hi; subst hi; exact h2 own
    · intro s hs; simp at hs
    · intro _ s hs; simp at hs
    · intro k b wr n hm; simp only [List.mem_singleton] at hm; cases hm; exact Or.inl rfl
  | union i js =>
    obtain ⟨items, h1, h2, h3, _, h5, h6⟩ := union_build h.1 (row_ok h i) (map_row_ok h js)
    refine ⟨_, _, rfl, ⟨h1, h2, h3⟩, ?_, ?_, fun k b wr n hm => Or.inl (h6 k b wr n hm).2⟩
    · intro s hs
      rcases (h5 s hs).1 with h | ⟨o, ho, h⟩
      · exact ⟨i, h⟩
      · obtain ⟨j, _, rfl⟩ := List.mem_map.1 ho; exact ⟨j, h⟩
    · intro hsafe s hs
      obtain ⟨hm, hc⟩ := h5 s hs
      cases hw : s.writable with
      | false => rfl
      | true =>
        exfalso
        have : 2 ≤ holders s.shard ((i :: js).map w.row) := by
          rcases hm with h | ⟨o, ho, h⟩
          · exact hsafe i (by simp) s h hw
          · obtain ⟨j, hj, rfl⟩ := List.mem_map.1 ho
            exact hsafe j (by simp [hj]) s h hw
        rw [List.map_cons] at this
        omega
  | intersect i j =>
    obtain ⟨h1, h2, h3, _, h5, h6⟩ := intersect_build h.1 (row_ok h i) (row_ok h j)
    refine ⟨_, _, rfl, ⟨h1, h2, h3⟩, fun s hs => absurd hs (h5 s), fun _ s hs => absurd hs (h5 s),
      fun k b wr n hm => Or.inl (h6 k b wr n hm).2⟩
  | xor i j =>
    obtain ⟨h1, h2, h3, _, h5, h6⟩ := xor_build h.1 (row_ok h i) (row_ok h j)
    refine ⟨_, _, rfl, ⟨h1, h2, h3⟩, ?_, ?_, fun k b wr n hm => Or.inl (h6 k b wr n hm).2⟩
    · intro s hs
      rcases (itr_alone (row_ok h i).1 (row_ok h j).1 s).1 (h5 s hs) with ⟨h, _⟩ | ⟨h, _⟩
      · exact ⟨i, h⟩
      · exact ⟨j, h⟩
    · intro hsafe s hs
      cases hw : s.writable with
      | false => rfl
      | true =>
        exfalso
        rcases (itr_alone (row_ok h i).1 (row_ok h j).1 s).1 (h5 s hs) with ⟨h, hn⟩ | ⟨h, hn⟩
        · obtain ⟨t, ht, e⟩ := hsafe.1 s h hw; exact hn t ht e
        · obtain ⟨t, ht, e⟩ := hsafe.2 s h hw; exact hn t ht e
  | difference i js =>
    obtain ⟨h1, h2, h3, _, h5, h6⟩ := difference_build h.1 (row_ok h i) (map_row_ok h js)
    refine ⟨_, _, rfl, ⟨h1, h2, h3⟩, fun s hs => ⟨i, (h5 s hs).1⟩, ?_, fun k b wr n hm => Or.inl (h6 k b wr n hm).2⟩
    intro hsafe s hs
    cases hw : s.writable with
    | false => rfl
    | true =>
      exfalso
      obtain ⟨hm, hn⟩ := h5 s hs
      obtain ⟨j, hj, t, ht, e⟩ := hsafe s hm hw
      exact hn _ (List.mem_map.2 ⟨j, hj, rfl⟩) t ht e
  | clone i =>
    obtain ⟨h1, h2, h3, _, h5⟩ := clone_build h.1 (row_ok h i)
    refine ⟨_, _, rfl, ⟨h1, h2, h3⟩, fun s hs => absurd hs (h5 s), fun _ s hs => absurd hs (h5 s), ?_⟩
    intro k b wr n hm
    obtain ⟨s, hs, e⟩ := List.mem_map.1 hm
    cases e
    exact Or.inr ⟨i, s, hs, rfl, rfl⟩

theorem inv_step {w : World} (h : WInv w) (op : Op) : WInv (step w op) := by
  obtain ⟨own, h⟩ := h
  by_cases hp : op.target = none ∧ (∀ cols, op ≠ .new cols) ∧ (∀ i j, op ≠ .absorb i j)
  · obtain ⟨p, items, e, hpu, _⟩ := pushes h op hp.1 hp.2.1 hp.2.2
    obtain ⟨own', _, _, _, hok, _⟩ := push_spec h hpu
    rw [e]; exact ⟨own', hok⟩
  · cases op with
    | new cols =>
      obtain ⟨own', e, hk, hr, _⟩ := newRow_spec (r := []) cols h.1 ⟨List.Pairwise.nil, by simp⟩
      refine ⟨own', hk, fun r hr' => ?_⟩
      rcases List.mem_append.1 hr' with h1 | h1
      · exact (h.2 r h1).ext e
      · simp at h1; subst h1; exact hr
    | setBit i c =>
      obtain ⟨⟨own', sp⟩, _⟩ := setBit_spec c h.1 (row_ok h i)
      exact ⟨own', put_ok h sp.ext sp.hok sp.rok⟩
    | merge i j =>
      obtain ⟨own', sp⟩ := merge_spec h.1 (row_ok h i) (row_ok h j)
      exact ⟨own', put_ok h sp.ext sp.hok sp.rok⟩
    | absorb i j =>
      obtain ⟨own', sp⟩ := merge_spec h.1 (row_ok h i) (row_ok h j)
      have := put_ok (i := i) h sp.ext sp.hok sp.rok
      refine ⟨own', this.1, fun r hr => ?_⟩
      rcases List.mem_or_eq_of_mem_set hr with h1 | h1
      · exact this.2 r h1
      · subst h1; exact ⟨List.Pairwise.nil, by simp⟩
    | _ => exact absurd ⟨rfl, by simp, by simp⟩ hp

theorem inv_run (ops : List Op) : WInv (run ops) := by
  unfold run
  have : ∀ w, WInv w → WInv (ops.foldl step w) := by
    induction ops with
    | nil => exact fun w h => h
    | cons o os ih => exact fun w h => ih _ (inv_step h o)
  exact this _ ⟨fun _ => 0, fun p => by simp [rd, Bm.nil_ok], by simp⟩

/-! ## Separation -/

/-- Two rows share a bitmap only if neither may write it. -/
def Sep (w : World) : Prop := ∀ i j, i ≠ j → ∀ s ∈ w.row i, ∀ t ∈ w.row j, s.data = t.data →
  s.writable = false ∧ t.writable = false

def Counted (w : World) : Prop := ∀ r ∈ w.rows, ∀ s ∈ r, s.n = (rd w.heap s.data).length

theorem Counted.row {w : World} (h : Counted w) (i : Nat) : ∀ s ∈ w.row i, s.n = (rd w.heap s.data).length := by
  unfold World.row
  rw [List.getD_eq_getElem?_getD]
  cases hg : w.rows[i]? with
  | none => simp
  | some r => exact h r (List.mem_of_getElem? hg)

theorem counted_of_rows {w : World} (h : ∀ i, ∀ s ∈ w.row i, s.n = (rd w.heap s.data).length) : Counted w := by
  intro r hr s hs
  obtain ⟨i, hi⟩ := List.mem_iff_getElem?.1 hr
  refine h i s ?_
  unfold World.row
  rw [List.getD_eq_getElem?_getD, hi]
  exact hs

theorem same_row {own w} (h : WOk own w) {i : Nat} {s t : Seg} (hs : s ∈ w.row i) (ht : t ∈ w.row i) (e : s.data = t.data) :
    s = t := by
  have hr := row_ok h i
  refine shard_unique hr hs ht ?_
  rw [← (hr.2 s hs).2, ← (hr.2 t ht).2, e]

/-- Writing row `i` (by `SetBit` or `Merge`) touches no other row's bitmaps when rows are separated. -/
theorem untouched {own w} (h : WOk own w) (hsep : Sep w) {i j : Nat} (hne : j ≠ i) {h' : Heap}
    (hf : ∀ p, p < w.heap.length → (¬ ∃ s ∈ w.row i, s.data = p ∧ s.writable = true) → rd h' p = rd w.heap p) :
    ∀ t ∈ w.row j, rd h' t.data = rd w.heap t.data := by
  intro t ht
  refine hf _ ((row_ok h j).2 t ht).1 ?_
  rintro ⟨s, hs, e, hw⟩
  have := (hsep i j hne.symm s hs t ht e).1
  rw [hw] at this; cases this

theorem columns_congr {h h' : Heap} {r : Row} (he : ∀ t ∈ r, rd h' t.data = rd h t.data) : columns h' r = columns h r := by
  simp only [columns, List.flatMap_def]
  congr 1
  exact List.map_congr_left he

/-- Safe calls keep rows separated and counts right. -/
theorem safe_step {w : World} (hi : WInv w) (hsep : Sep w) (hcnt : Counted w) (op : Op) (hsafe : Safe w op) :
    Sep (step w op) ∧ Counted (step w op) := by
  obtain ⟨own, h⟩ := hi
  by_cases hp : op.target = none ∧ (∀ cols, op ≠ .new cols) ∧ (∀ i j, op ≠ .absorb i j)
  · obtain ⟨p, items, e, hpu, hk, hkw, hn⟩ := pushes h op hp.1 hp.2.1 hp.2.2
    obtain ⟨own', t, e1, _, hok, _, hfrom⟩ := push_spec h hpu
    rw [e]
    constructor
    · intro i j hne s hs t' ht' ed
      rw [row_push] at hs ht'
      have key : ∀ {s : Seg} {j : Nat}, s ∈ p.2 → ∀ t ∈ w.row j, s.data = t.data → s.writable = false ∧ t.writable = false := by
        intro s j hs t ht ed
        rcases hfrom s hs with h1 | ⟨b, _, h1, _⟩
        · have hw := hkw hsafe s h1
          obtain ⟨k, hsk⟩ := hk s h1
          by_cases hkj : k = j
          · subst hkj
            have := same_row h hsk ht ed
            exact ⟨hw, this ▸ hw⟩
          · exact hsep k j hkj s hsk t ht ed
        · have := ((row_ok h j).2 t ht).1; omega
      split at hs
      · rename_i hin
        rw [if_neg (by omega)] at ht'
        exact key hs t' ht' ed
      · split at ht'
        · exact (key ht' s hs ed.symm).symm
        · exact hsep i j hne s hs t' ht' ed
    · refine counted_of_rows fun i s hs => ?_
      rw [row_push] at hs
      show s.n = (rd p.1 s.data).length
      split at hs
      · rcases hfrom s hs with h1 | ⟨b, h1, _, h2⟩
        · obtain ⟨k, hsk⟩ := hk s h1
          rw [e1, rd_append ((row_ok h k).2 s hsk).1]
          exact hcnt.row k s hsk
        · rw [h2]
          rcases hn _ _ _ _ h1 with e | ⟨k, u, hu, e, eb⟩
          · exact e
          · rw [e, eb]; exact hcnt.row k u hu
      · rw [e1, rd_append ((row_ok h i).2 s hs).1]
        exact hcnt.row i s hs
  · cases op with
    | new cols =>
      obtain ⟨own', e, hk, hr, _, hf, hsh, hc⟩ := newRow_spec (r := []) cols h.1 ⟨List.Pairwise.nil, by simp⟩
      constructor
      · intro i j hne s hs t ht ed
        simp only [step] at hs ht
        rw [row_push] at hs ht
        have key : ∀ {s : Seg} {j : Nat}, s ∈ (newRow w.heap [] cols).2 → ∀ t ∈ w.row j, s.data ≠ t.data := by
          intro s j hs t ht ed
          rcases hsh s hs with h1 | h1 | ⟨_, h1, _⟩
          · cases h1
          · have := ((row_ok h j).2 t ht).1; omega
          · cases h1
        split at hs
        · rw [if_neg (by omega)] at ht
          exact absurd ed (key hs t ht)
        · split at ht
          · exact absurd ed.symm (key ht s hs)
          · exact hsep i j hne s hs t ht ed
      · refine counted_of_rows fun i s hs => ?_
        simp only [step] at hs ⊢
        rw [row_push] at hs
        split at hs
        · exact hc (by simp) s hs
        · show s.n = (rd (newRow w.heap [] cols).1 s.data).length
          rw [hf _ ((row_ok h i).2 s hs).1 (by simp)]
          exact hcnt.row i s hs
    | setBit i c =>
      obtain ⟨⟨own', sp⟩, _⟩ := setBit_spec c h.1 (row_ok h i)
      have hun : ∀ j, j ≠ i → ∀ t ∈ w.row j, rd (setBit w.heap c (w.row i)).1 t.data = rd w.heap t.data := fun j hne =>
        untouched h hsep hne fun p hp hn => sp.frame p hp (by rintro ⟨s, hs, _, e1, e2⟩; exact hn ⟨s, hs, e1, e2⟩)
      have key : ∀ {s : Seg} {j : Nat}, j ≠ i → s ∈ (setBit w.heap c (w.row i)).2.1 → ∀ t ∈ w.row j, s.data = t.data →
          s.writable = false ∧ t.writable = false := by
        intro s j hne hs t ht ed
        rcases sp.shape s hs with ⟨h1, _⟩ | ⟨_, _, h1 | ⟨u, hu, _, e1, e2⟩⟩
        · exact hsep i j hne.symm s h1 t ht ed
        · have := ((row_ok h j).2 t ht).1; omega
        · have := (hsep i j hne.symm u hu t ht (e1.trans ed)).1
          rw [e2] at this; cases this
      constructor
      · intro a b hne s hs t ht ed
        simp only [step] at hs ht
        rw [row_put] at hs ht
        by_cases ha : a = i ∧ i < w.rows.length
        · rw [if_pos ha] at hs
          rw [if_neg (by rintro ⟨rfl, _⟩; exact hne ha.1)] at ht
          exact key (by rintro rfl; exact hne ha.1) hs t ht ed
        · rw [if_neg ha] at hs
          by_cases hb : b = i ∧ i < w.rows.length
          · rw [if_pos hb] at ht
            exact (key (by rintro rfl; exact hne hb.1.symm) ht s hs ed.symm).symm
          · rw [if_neg hb] at ht
            exact hsep a b hne s hs t ht ed
      · refine counted_of_rows fun a s hs => ?_
        simp only [step] at hs ⊢
        rw [row_put] at hs
        by_cases ha : a = i ∧ i < w.rows.length
        · rw [if_pos ha] at hs
          exact sp.cnt (hcnt.row i) s hs
        · rw [if_neg ha] at hs
          by_cases hai : a = i
          · subst hai
            have hout : w.row a = [] := by
              unfold World.row
              rw [List.getD_eq_getElem?_getD, List.getElem?_eq_none (by simp at ha; omega)]; rfl
            rw [hout] at hs; cases hs
          · show s.n = (rd (setBit w.heap c (w.row i)).1 s.data).length
            rw [hun a hai s hs]
            exact hcnt.row a s hs
    | merge i j =>
      obtain ⟨own', sp⟩ := merge_spec h.1 (row_ok h i) (row_ok h j)
      have hun : ∀ k, k ≠ i → ∀ t ∈ w.row k, rd (merge w.heap (w.row i) (w.row j)).1 t.data = rd w.heap t.data := fun k hne =>
        untouched h hsep hne fun p hp hn => sp.frame p hp (by rintro ⟨s, hs, e1, e2, _⟩; exact hn ⟨s, hs, e1, e2⟩)
      have key : ∀ {s : Seg} {k : Nat}, k ≠ i → s ∈ (merge w.heap (w.row i) (w.row j)).2 → ∀ t ∈ w.row k, s.data = t.data →
          s.writable = false ∧ t.writable = false := by
        intro s k hne hs t ht ed
        rcases sp.shape s hs with ⟨u, hu | ⟨hu, hno⟩, e1, e2⟩ | ⟨_, h1⟩
        · rw [e2]; exact hsep i k hne.symm u hu t ht (e1.symm.trans ed)
        · have huw : u.writable = false := by
            cases hw : u.writable with
            | false => rfl
            | true => obtain ⟨v, hv, e⟩ := hsafe u hu hw; exact absurd e (hno v hv)
          by_cases hkj : k = j
          · subst hkj
            have := same_row h hu ht (e1.symm.trans ed)
            rw [e2, ← this]; exact ⟨huw, huw⟩
          · rw [e2]; exact hsep j k (Ne.symm hkj) u hu t ht (e1.symm.trans ed)
        · have := ((row_ok h k).2 t ht).1; omega
      constructor
      · intro a b hne s hs t ht ed
        simp only [step] at hs ht
        rw [row_put] at hs ht
        by_cases ha : a = i ∧ i < w.rows.length
        · rw [if_pos ha] at hs
          rw [if_neg (by rintro ⟨rfl, _⟩; exact hne ha.1)] at ht
          exact key (by rintro rfl; exact hne ha.1) hs t ht ed
        · rw [if_neg ha] at hs
          by_cases hb : b = i ∧ i < w.rows.length
          · rw [if_pos hb] at ht
            exact (key (by rintro rfl; exact hne hb.1.symm) ht s hs ed.symm).symm
          · rw [if_neg hb] at ht
            exact hsep a b hne s hs t ht ed
      · refine counted_of_rows fun a s hs => ?_
        simp only [step] at hs ⊢
        rw [row_put] at hs
        by_cases ha : a = i ∧ i < w.rows.length
        · rw [if_pos ha] at hs
          exact sp.cnt s hs
        · rw [if_neg ha] at hs
          by_cases hai : a = i
          · subst hai
            have hout : w.row a = [] := by
              unfold World.row
              rw [List.getD_eq_getElem?_getD, List.getElem?_eq_none (by simp at ha; omega)]; rfl
            rw [hout] at hs; cases hs
          · show s.n = (rd (merge w.heap (w.row i) (w.row j)).1 s.data).length
            rw [hun a hai s hs]
            exact hcnt.row a s hs
    | absorb i j =>
      obtain ⟨own', sp⟩ := merge_spec h.1 (row_ok h i) (row_ok h j)
      have hun : ∀ k, k ≠ i → ∀ t ∈ w.row k, rd (merge w.heap (w.row i) (w.row j)).1 t.data = rd w.heap t.data := fun k hne =>
        untouched h hsep hne fun p hp hn => sp.frame p hp (by rintro ⟨s, hs, e1, e2, _⟩; exact hn ⟨s, hs, e1, e2⟩)
      -- rows other than the dropped one are as after the merge
      have hrow : ∀ k s, s ∈ (step w (.absorb i j)).row k → k ≠ j ∧ s ∈ (w.put i (merge w.heap (w.row i) (w.row j))).row k := by
        intro k s hs
        simp only [step, World.row, World.put, List.getD_eq_getElem?_getD] at hs ⊢
        by_cases hk : j = k
        · subst hk
          rw [List.getElem?_set] at hs
          split at hs
          · split at hs <;> simp at hs
          · simp at *
        · rw [List.getElem?_set_ne hk] at hs
          exact ⟨Ne.symm hk, hs⟩
      have key : ∀ {s : Seg} {k : Nat}, k ≠ i → k ≠ j → s ∈ (merge w.heap (w.row i) (w.row j)).2 → ∀ t ∈ w.row k,
          s.data = t.data → s.writable = false ∧ t.writable = false := by
        intro s k hne hnj hs t ht ed
        rcases sp.shape s hs with ⟨u, hu | ⟨hu, _⟩, e1, e2⟩ | ⟨_, h1⟩
        · rw [e2]; exact hsep i k hne.symm u hu t ht (e1.symm.trans ed)
        · rw [e2]; exact hsep j k (Ne.symm hnj) u hu t ht (e1.symm.trans ed)
        · have := ((row_ok h k).2 t ht).1; omega
      constructor
      · intro a b hne s hs t ht ed
        obtain ⟨haj, hs⟩ := hrow a s hs
        obtain ⟨hbj, ht⟩ := hrow b t ht
        rw [row_put] at hs ht
        by_cases ha : a = i ∧ i < w.rows.length
        · rw [if_pos ha] at hs
          rw [if_neg (by rintro ⟨rfl, _⟩; exact hne ha.1)] at ht
          exact key (by rintro rfl; exact hne ha.1) hbj hs t ht ed
        · rw [if_neg ha] at hs
          by_cases hb : b = i ∧ i < w.rows.length
          · rw [if_pos hb] at ht
            exact (key (by rintro rfl; exact hne hb.1.symm) haj ht s hs ed.symm).symm
          · rw [if_neg hb] at ht
            exact hsep a b hne s hs t ht ed
      · refine counted_of_rows fun a s hs => ?_
        obtain ⟨haj, hs'⟩ := hrow a s hs
        clear hs
        show s.n = (rd (merge w.heap (w.row i) (w.row j)).1 s.data).length
        rw [row_put] at hs'
        by_cases ha : a = i ∧ i < w.rows.length
        · rw [if_pos ha] at hs'
          exact sp.cnt s hs'
        · rw [if_neg ha] at hs'
          by_cases hai : a = i
          · subst hai
            have hout : w.row a = [] := by
              unfold World.row
              rw [List.getD_eq_getElem?_getD, List.getElem?_eq_none (by simp at ha; omega)]; rfl
            rw [hout] at hs'; cases hs'
          · rw [hun a hai s hs']
            exact hcnt.row a s hs'
    | _ => exact absurd ⟨rfl, by simp, by simp⟩ hp

theorem safeRun_inv {w : World} (h : SafeRun w) : WInv w ∧ Sep w ∧ Counted w := by
  induction h with
  | init =>
    refine ⟨⟨fun _ => 0, fun p => by simp [rd, Bm.nil_ok], by simp⟩, ?_, ?_⟩
    · intro i j _ s hs; simp [World.row] at hs
    · intro r hr; cases hr
  | step op _ hs ih =>
    obtain ⟨h1, h2, h3⟩ := ih
    exact ⟨inv_step h1 op, safe_step h1 h2 h3 op hs⟩

theorem columns_sorted {own h r} (hh : HOk own h) (hr : ROk own h r) : (columns h r).Pairwise (· < ·) := by
  have hp := hr.1
  induction r with
  | nil => simp [columns]
  | cons s r ih =>
    have hp' := List.pairwise_cons.1 hp
    have hr' : ROk own h r := ⟨hp'.2, fun t ht => hr.2 t (List.mem_cons_of_mem _ ht)⟩
    have e : columns h (s :: r) = rd h s.data ++ columns h r := by simp [columns]
    rw [e, List.pairwise_append]
    refine ⟨(hh _).1, ih hr' hp'.2, fun x hx y hy => ?_⟩
    obtain ⟨t, ht, hy⟩ := mem_columns.1 hy
    have h1 := seg_bits hh hr (by simp) hx
    have h2 := seg_bits hh hr' ht hy
    have h3 := hp'.1 t ht
    refine Nat.lt_of_not_le fun hc => ?_
    have := Nat.div_le_div_right (c := shardWidth) hc
    omega

end Verif.Rw
