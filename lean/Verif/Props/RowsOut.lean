import Verif.Model.RowsOut
import Verif.Props.Rows
import Verif.Lemmas.Bytes
import Verif.Spec.Decimal
import Mathlib.Data.List.Forall2
/-!
# C79: reading rows out of the package

`C79_table`, `C79_lines`: the table of a row lists its columns (or its string keys) one by one, in order, and reading the values gives them back;
`C79_json`: the JSON text of two rows is the same exactly if their columns are; `C79_shard_columns`, `C79_roaring`, `C79_intersections`;
`C79_clear`: `ClearBit` removes this column from this row and nothing else. `C79_shift`: exactly what `Shift` gives; `Includes` is wrong
for the columns that moved to another shard. `C79_double`: reading an integer as a double ends the process, and a double reads as 0.
`C79_freeze`: `Freeze` freezes nothing.
-/
namespace Verif.Rw
open Bt (shardWidth)

/-! ## Tables -/

theorem sendAll_table (vs : List Val) (t : Table) (ci : Option (List ColumnInfo)) :
    sendAll tableCb t ci vs = .ok ⟨if t.rows = [] ∧ vs ≠ [] then ci else t.headers, t.rows ++ vs.map ([·])⟩ := by
  induction vs generalizing t ci with
  | nil => simp [sendAll]
  | cons v vs ih =>
    simp only [sendAll, tableCb, ih]
    cases h : t.rows with
    | nil => simp
    | cons a l => simp

/-- **C79**: the table of a row without string keys: one line for each column, in order, under `_id`; no headers if there are none.
Of a row with string keys, its keys. -/
theorem C79_table (keys : List Bytes) (cols : List Nat) :
    ∃ t, toTable keys cols = .ok t ∧
      (keys = [] → t.rows.map (·.map Val.toInt) = cols.map ([·]) ∧ t.headers = if cols = [] then none else some [⟨ascii "_id", .int64⟩]) ∧
      (keys ≠ [] → t.rows.map (·.map Val.toStr) = keys.map ([·]) ∧ t.headers = some [⟨ascii "_id", .string⟩]) := by
  unfold toTable toRows
  cases keys with
  | nil =>
    rw [if_pos (show ([] : List Bytes).isEmpty = true from rfl), sendAll_table]
    refine ⟨_, rfl, fun _ => ⟨?_, ?_⟩, fun h => absurd rfl h⟩
    · simp [Function.comp_def, intValue, Val.toInt]
    · cases cols <;> (simp; try rfl)
  | cons k ks =>
    rw [if_neg (by simp), sendAll_table]
    refine ⟨_, rfl, fun h => (nomatch h), fun _ => ⟨?_, ?_⟩⟩
    · simp [Function.comp_def, stringValue, Val.toStr]
    · simp; rfl

/-- The lines of a row: its columns, or its string keys if it has any; the first with the headers. -/
def lines (keys : List Bytes) (cols : List Nat) : List RowResult :=
  (if keys = [] then cols.map intValue else keys.map stringValue).mapIdx fun k v =>
    { headers := if k = 0 then some [⟨ascii "_id", if keys = [] then .int64 else .string⟩] else none, columns := [v] }

theorem sendAll_lines {σ ε : Type} (cb : σ → RowResult → Except ε σ) (vs : List Val) (st : σ) (ci : Option (List ColumnInfo)) :
    sendAll cb st ci vs = (vs.mapIdx fun k v => RowResult.mk (if k = 0 then ci else none) [v]).foldlM cb st := by
  induction vs generalizing st ci with
  | nil => rfl
  | cons v vs ih =>
    rw [List.mapIdx_cons, List.foldlM_cons]
    simp only [sendAll, if_true]
    cases h : cb st ⟨ci, [v]⟩ with
    | error e => rfl
    | ok st' =>
      simp only [ih]
      show _ = List.foldlM _ _ _
      congr 2
      funext k v
      by_cases hk : k = 0 <;> simp [hk]

/-- **C79**: a callback gets exactly the lines of the row, in order, until it fails; its error is returned. -/
theorem C79_lines {σ ε : Type} (cb : σ → RowResult → Except ε σ) (st : σ) (keys : List Bytes) (cols : List Nat) :
    toRows cb st keys cols = (lines keys cols).foldlM cb st := by
  unfold toRows lines
  cases keys with
  | nil => rw [if_pos (show ([] : List Bytes).isEmpty = true from rfl), sendAll_lines]; rfl
  | cons k ks => rw [if_neg (by simp), sendAll_lines]; rfl

/-- A callback that refuses the second line. -/
example : toRows (σ := Nat) (ε := Unit) (fun n _ => if n = 1 then .error () else .ok (n + 1)) 0 [] [5, 6, 7] = .error () := rfl

/-- **C79**: reading an integer as a double ends the process; reading a double as a double gives 0. -/
theorem C79_double : (∀ v, (intValue v).toDouble = none) ∧ ∀ d, (Val.toDouble { double := some d }) = some 0 := ⟨fun _ => rfl, fun _ => rfl⟩

/-! ## JSON -/

theorem dec_no_comma (n : Nat) : (44 : UInt8) ∉ dec n := fun h => by
  have := dec_digits n 44 h
  unfold isDigit at this
  revert this; decide

theorem comma_split {a b r s : Bytes} (ha : (44 : UInt8) ∉ a) (hb : (44 : UInt8) ∉ b) (h : a ++ 44 :: r = b ++ 44 :: s) : a = b ∧ r = s := by
  induction a generalizing b with
  | nil => cases b with
    | nil => simpa using h
    | cons y b => simp at h; exact absurd (by rw [h.1]; simp) hb
  | cons x a ih => cases b with
    | nil => simp at h; exact absurd (by rw [h.1]; simp) ha
    | cons y b =>
      simp only [List.cons_append, List.cons.injEq] at h
      obtain ⟨e1, e2⟩ := ih (fun h => ha (by simp [h])) (fun h => hb (by simp [h])) h.2
      exact ⟨by rw [h.1, e1], e2⟩

theorem commas_inj : ∀ {l l' : List Nat}, commas (l.map dec) = commas (l'.map dec) → l = l'
  | [], [], _ => rfl
  | [], [x], h => absurd h.symm (dec_ne_nil x)
  | [], x :: y :: l, h => by simp [commas] at h
  | [x], [], h => absurd h (dec_ne_nil x)
  | x :: y :: l, [], h => by simp [commas] at h
  | [x], [y], h => by rw [dec_injective h]
  | [x], y :: z :: l, h => by
    simp only [List.map_cons, List.map_nil, commas] at h
    exact absurd (by rw [h]; simp) (dec_no_comma x)
  | x :: z :: l, [y], h => by
    simp only [List.map_cons, List.map_nil, commas] at h
    exact absurd (by rw [← h]; simp) (dec_no_comma y)
  | x :: z :: l, y :: z' :: l', h => by
    simp only [List.map_cons, commas] at h
    obtain ⟨e1, e2⟩ := comma_split (dec_no_comma x) (dec_no_comma y) h
    rw [dec_injective e1, commas_inj (l := z :: l) (l' := z' :: l') (by simpa using e2)]

/-- **C79**: two rows without string keys, of whatever programs, have the same JSON text exactly if they have the same columns. -/
theorem C79_json (w w' : World) (i j : Nat) : marshalJSON w.heap (w.row i) = marshalJSON w'.heap (w'.row j) ↔ w.cols i = w'.cols j := by
  constructor
  · intro h
    unfold marshalJSON at h
    rw [List.append_assoc, List.append_assoc] at h
    exact commas_inj (List.append_cancel_right (List.append_cancel_left h))
  · intro h
    unfold marshalJSON
    rw [show columns w.heap (w.row i) = _ from h]; rfl

example : marshalJSON (run [.new [5, 1048577]]).heap ((run [.new [5, 1048577]]).row 0) = ascii "{\"columns\":[5,1048577]}" := by decide +kernel

/-! ## Columns within shards, intersections, files -/

/-- **C79**: `ShardColumns` lists the columns in the same order, each within its shard. -/
theorem C79_shard_columns (w : World) (i : Nat) : shardColumns w.heap (w.row i) = (w.cols i).map (· % shardWidth) := by
  unfold shardColumns World.cols columns
  rw [List.map_flatMap]

/-- So columns of different shards can look the same. -/
example : shardColumns (run [.new [5, 1048581]]).heap ((run [.new [5, 1048581]]).row 0) = [5, 5] := by decide +kernel

/-- **C79**: the number of common columns is counted right, in any program. -/
theorem C79_intersections (ops : List Op) (i j : Nat) :
    intersectionCount (run ops).heap ((run ops).row i) ((run ops).row j) =
      (((run ops).cols i).filter fun c => decide (c ∈ (run ops).cols j)).length := by
  obtain ⟨own, h⟩ := inv_run ops
  obtain ⟨h1, h2, h3, h4, h5, h6⟩ := intersect_build h.1 (row_ok h i) (row_ok h j)
  obtain ⟨own', t, b1, b2, b3, b4, b5, b6, b7⟩ := build_spec _ h.1 h2 h3
  have hs := columns_sorted b3 b4
  rw [b5] at hs
  have hf : (((run ops).cols i).filter fun c => decide (c ∈ (run ops).cols j)).Pairwise (· < ·) :=
    List.Pairwise.filter _ (columns_sorted h.1 (row_ok h i))
  have he : ((itr ((run ops).row i) ((run ops).row j)).filterMap (interItem (run ops).heap)).flatMap (Item.bits (run ops).heap) =
      ((run ops).cols i).filter fun c => decide (c ∈ (run ops).cols j) := by
    apply Bm.ext hs hf
    intro x
    rw [h4, List.mem_filter, decide_eq_true_eq]
    exact Iff.rfl
  rw [← he, List.length_flatMap]
  unfold intersectionCount
  generalize itr ((run ops).row i) ((run ops).row j) = ps
  clear h1 h2 h3 h4 h5 h6 b1 b2 b3 b4 b5 b6 b7 hs hf he
  induction ps with
  | nil => rfl
  | cons q ps ih =>
    obtain ⟨x, y⟩ := q
    rw [List.map_cons, List.sum_cons, ih, List.filterMap_cons]
    cases x <;> cases y <;> simp [interItem, common]
    rfl

def roaringItem (b : Bm) (k : Nat) : Item :=
  .mk k (b.filter (fun x => decide (x / shardWidth = k))) false (b.filter (fun x => decide (x / shardWidth = k))).length

theorem fromRoaring_eq (h : Heap) (b : Bm) (ks : List Nat) : fromRoaring h b ks = build h (ks.map (roaringItem b)) := by
  induction ks generalizing h with
  | nil => rfl
  | cons k ks ih => simp only [fromRoaring, List.map_cons, roaringItem, build, fresh, ih]

/-- **C79**: a row written as a roaring file and read back, in any program, is an independent row with the same columns and the right
count. -/
theorem C79_roaring (ops : List Op) (i : Nat) :
    let h := (run ops).heap
    let b := roaring h ((run ops).row i)
    let p := fromRoaring h b (shardsOf b)
    columns p.1 p.2 = (run ops).cols i ∧ count p.2 = ((run ops).cols i).length ∧ (∀ s ∈ p.2, h.length ≤ s.data) ∧ ∃ t, p.1 = h ++ t := by
  intro h b p
  obtain ⟨own, ho⟩ := inv_run ops
  have hb : b.Ok := Bm.foldl_add_ok Bm.nil_ok
  have hbm : ∀ x, x ∈ b ↔ x ∈ (run ops).cols i := fun x => by
    show x ∈ List.foldl Bm.add [] _ ↔ _
    rw [Bm.mem_foldl_add]; simp [World.cols, h]
  have he : p = build h ((shardsOf b).map (roaringItem b)) := fromRoaring_eq _ _ _
  have hs : ((shardsOf b).map (roaringItem b)).Pairwise (fun a b => a.shard < b.shard) := by
    rw [List.pairwise_map]; exact Bm.foldl_add_ok Bm.nil_ok
  have hok : ∀ x ∈ (shardsOf b).map (roaringItem b), x.Ok own h := by
    intro x hx
    obtain ⟨k, _, rfl⟩ := List.mem_map.1 hx
    exact ⟨List.Pairwise.filter _ hb, fun x hx => by simpa using (List.mem_filter.1 hx).2⟩
  obtain ⟨own', t, b1, b2, b3, b4, b5, b6, b7⟩ := build_spec _ ho.1 hs hok
  rw [← he] at *
  have hcol : columns p.1 p.2 = (run ops).cols i := by
    rw [b1, b5]
    apply Bm.ext
    · rw [← b5]; exact columns_sorted b3 b4
    · exact columns_sorted ho.1 (row_ok ho i)
    intro x
    rw [← hbm]
    simp only [List.mem_flatMap, List.mem_map]
    constructor
    · rintro ⟨_, ⟨k, _, rfl⟩, hx⟩
      exact (List.mem_filter.1 (show x ∈ List.filter _ _ from hx)).1
    · intro hx
      refine ⟨_, ⟨x / shardWidth, ?_, rfl⟩, ?_⟩
      · exact Bm.mem_foldl_add.2 (Or.inr (List.mem_map.2 ⟨x, hx, rfl⟩))
      · exact List.mem_filter.2 ⟨hx, by simp⟩
  have hn : ∀ s ∈ p.2, s.n = (rd p.1 s.data).length ∧ h.length ≤ s.data := by
    intro s hs
    rcases b7 s hs with hk | ⟨b', hm, hd, hr⟩
    · obtain ⟨k, _, e⟩ := List.mem_map.1 hk
      cases e
    · obtain ⟨k, _, e⟩ := List.mem_map.1 hm
      unfold roaringItem at e
      injection e with e1 e2 e3 e4
      rw [b1, hr, ← e2, ← e4]
      exact ⟨rfl, hd⟩
  refine ⟨hcol, ?_, fun s hs => (hn s hs).2, t, b1⟩
  rw [← hcol]
  have : ∀ l : Row, (∀ s ∈ l, s.n = (rd p.1 s.data).length) → count l = (columns p.1 l).length := by
    intro l hl
    induction l with
    | nil => rfl
    | cons s l ih =>
      simp only [count, columns, List.map_cons, List.sum_cons, List.flatMap_cons, List.length_append] at *
      rw [hl s (by simp), ih fun t ht => hl t (by simp [ht])]
  exact this _ fun s hs => (hn s hs).1

/-! ## Shift -/

/-- What a shift by `n` makes of a segment. -/
def Shifted (h h' : Heap) (n : Nat) (s s' : Seg) : Prop :=
  s'.shard = s.shard ∧ rd h' s'.data = (rd h s.data).map (· + n) ∧ s'.data < h'.length ∧
    (s.n = (rd h s.data).length → s'.n = (rd h' s'.data).length)

theorem shiftSegs_spec (h : Heap) (r : Row) (hb : ∀ s ∈ r, s.data < h.length) :
    (∃ t, (shiftSegs h r).1 = h ++ t) ∧ List.Forall₂ (Shifted h (shiftSegs h r).1 1) r (shiftSegs h r).2 := by
  suffices H : ∀ (h0 h : Heap), (∃ u, h = h0 ++ u) → (∀ s ∈ r, s.data < h0.length) →
      (∃ t, (shiftSegs h r).1 = h ++ t) ∧ List.Forall₂ (Shifted h0 (shiftSegs h r).1 1) r (shiftSegs h r).2 from H h h ⟨[], by simp⟩ hb
  clear hb
  induction r with
  | nil => exact fun h0 h _ _ => ⟨⟨[], by simp [shiftSegs]⟩, .nil⟩
  | cons s r ih =>
    rintro h0 _ ⟨u, rfl⟩ hb
    obtain ⟨⟨t, ht⟩, hr⟩ := ih h0 (h0 ++ u ++ [(rd (h0 ++ u) s.data).map (· + 1)]) ⟨u ++ [(rd (h0 ++ u) s.data).map (· + 1)], by simp⟩
      (fun x hx => hb x (by simp [hx]))
    have hs : rd (h0 ++ u) s.data = rd h0 s.data := rd_append (hb s (by simp))
    simp only [shiftSegs, fresh]
    refine ⟨⟨[(rd (h0 ++ u) s.data).map (· + 1)] ++ t, by rw [ht, List.append_assoc]⟩, .cons ⟨rfl, ?_, ?_, ?_⟩ hr⟩
    · show rd _ (h0 ++ u).length = _
      rw [ht, rd_append (by simp), rd_new, hs]
    · show (h0 ++ u).length < _
      rw [ht]; simp
    · intro _
      show ((rd (h0 ++ u) s.data).map (· + 1)).length = (rd _ (h0 ++ u).length).length
      rw [ht]
      rw [rd_append (h := h0 ++ u ++ [(rd (h0 ++ u) s.data).map (· + 1)]) (t := t) (p := (h0 ++ u).length) (by simp)]
      rw [rd_new]

theorem forall₂_bound {R : Seg → Seg → Prop} {h' : Heap} {r r' : Row} (h : List.Forall₂ R r r') (hb : ∀ s s', R s s' → s'.data < h'.length) :
    ∀ s ∈ r', s.data < h'.length := by
  induction h with
  | nil => intro s hs; cases hs
  | cons h1 _ ih =>
    intro s hs
    rcases List.mem_cons.1 hs with rfl | hs
    · exact hb _ _ h1
    · exact ih s hs

theorem forall₂_trans {σ τ υ : Type} {R : σ → τ → Prop} {S : τ → υ → Prop} {T : σ → υ → Prop} (hT : ∀ a b c, R a b → S b c → T a c) :
    ∀ {l : List σ} {m : List τ} {n : List υ}, List.Forall₂ R l m → List.Forall₂ S m n → List.Forall₂ T l n
  | _, _, _, .nil, .nil => .nil
  | _, _, _, .cons h1 h2, .cons h3 h4 => .cons (hT _ _ _ h1 h3) (forall₂_trans hT h2 h4)

theorem shiftLoop_spec (n : Nat) (h : Heap) (r : Row) (hb : ∀ s ∈ r, s.data < h.length) :
    (∃ t, (shiftLoop n h r).1 = h ++ t) ∧ List.Forall₂ (Shifted h (shiftLoop n h r).1 n) r (shiftLoop n h r).2 := by
  induction n generalizing h r with
  | zero =>
    refine ⟨⟨[], by simp [shiftLoop]⟩, ?_⟩
    simp only [shiftLoop]
    rw [List.forall₂_same]
    exact fun s hs => ⟨rfl, by simp, hb s hs, id⟩
  | succ n ih =>
    obtain ⟨⟨t, ht⟩, h1⟩ := shiftSegs_spec h r hb
    obtain ⟨⟨t', ht'⟩, h2⟩ := ih (shiftSegs h r).1 (shiftSegs h r).2 (forall₂_bound h1 fun _ _ hs => hs.2.2.1)
    simp only [shiftLoop]
    refine ⟨⟨t ++ t', by rw [ht', ht, List.append_assoc]⟩, forall₂_trans ?_ h1 h2⟩
    rintro a b c ⟨a1, a2, a3, a4⟩ ⟨b1, b2, b3, b4⟩
    refine ⟨b1.trans a1, ?_, b3, fun hn => b4 (a4 hn)⟩
    rw [b2, a2, List.map_map]
    congr 1
    funext x
    show x + 1 + n = x + (n + 1)
    omega

theorem shifted_columns {h h' : Heap} {n : Nat} {r r' : Row} (hs : List.Forall₂ (Shifted h h' n) r r') :
    columns h' r' = (columns h r).map (· + n) := by
  induction hs with
  | nil => rfl
  | cons h1 _ ih =>
    simp only [columns, List.flatMap_cons, List.map_append] at *
    rw [h1.2.1, ih]

theorem shifted_count {h h' : Heap} {n : Nat} {r r' : Row} (hs : List.Forall₂ (Shifted h h' n) r r')
    (hc : ∀ s ∈ r, s.n = (rd h s.data).length) : count r' = (columns h' r').length := by
  induction hs with
  | nil => rfl
  | cons h1 _ ih =>
    have := ih fun s hs => hc s (by simp [hs])
    simp only [count, columns, List.map_cons, List.sum_cons, List.flatMap_cons, List.length_append] at *
    rw [this, h1.2.2.2 (hc _ (by simp))]

theorem shifted_find {h h' : Heap} {n k : Nat} {r r' : Row} (hs : List.Forall₂ (Shifted h h' n) r r') :
    (r.find? (fun s => decide (s.shard = k)) = none ∧ r'.find? (fun s => decide (s.shard = k)) = none) ∨
    ∃ s s', r.find? (fun s => decide (s.shard = k)) = some s ∧ r'.find? (fun s => decide (s.shard = k)) = some s' ∧ Shifted h h' n s s' := by
  induction hs with
  | nil => exact .inl ⟨rfl, rfl⟩
  | @cons a b l l' h1 _ ih =>
    by_cases e : a.shard = k
    · exact .inr ⟨a, b, by simp [e], by simp [h1.1, e], h1⟩
    · have e' : b.shard ≠ k := by rw [h1.1]; exact e
      simpa [e, e'] using ih

/-- **C79**, exactly what `Shift` gives, in any program: an error for negative numbers; otherwise `Columns` lists all columns plus `n` and
no bitmap that existed is changed, but `Includes` only finds the columns that stayed in their shard. -/
theorem C79_shift (ops : List Op) (i : Nat) (n : Int) :
    (n < 0 → shift (run ops).heap ((run ops).row i) n = none) ∧
    (0 ≤ n → ∃ p, shift (run ops).heap ((run ops).row i) n = some p ∧ columns p.1 p.2 = ((run ops).cols i).map (· + n.toNat) ∧
      (∃ t, p.1 = (run ops).heap ++ t) ∧
      ∀ x, includes p.1 p.2 x = true ↔ ∃ c ∈ (run ops).cols i, c + n.toNat = x ∧ c / shardWidth = x / shardWidth) := by
  obtain ⟨own, h⟩ := inv_run ops
  have hr := row_ok h i
  obtain ⟨ht, hs⟩ := shiftLoop_spec n.toNat (run ops).heap ((run ops).row i) fun s hs => (hr.2 s hs).1
  refine ⟨fun hn => if_pos hn, fun hn => ⟨_, if_neg (by omega), shifted_columns hs, ht, fun x => ?_⟩⟩
  unfold includes
  rcases shifted_find (k := x / shardWidth) hs with ⟨h1, h2⟩ | ⟨s, s', h1, h2, h3⟩
  · rw [h2]
    simp only [Bool.false_eq_true, false_iff]
    rintro ⟨c, hc, _, hk⟩
    obtain ⟨s, hs, hx⟩ := mem_columns.1 hc
    rw [List.find?_eq_none] at h1
    have := h1 s hs
    simp only [decide_eq_true_eq] at this
    exact this ((seg_bits h.1 hr hs hx).symm.trans hk)
  · rw [h2]
    have hm := List.mem_of_find?_eq_some h1
    have he := List.find?_some h1
    simp only [decide_eq_true_eq] at he ⊢
    rw [h3.2.1, List.mem_map]
    constructor
    · rintro ⟨c, hc, e⟩
      exact ⟨c, mem_columns.2 ⟨s, hm, hc⟩, e, (seg_bits h.1 hr hm hc).trans he⟩
    · rintro ⟨c, hc, e, hk⟩
      obtain ⟨t, ht, hx⟩ := mem_columns.1 hc
      have := shard_unique hr ht hm ((seg_bits h.1 hr ht hx).symm.trans (hk.trans he.symm))
      exact ⟨c, this ▸ hx, e⟩

/-- In a program whose calls are safe the count of a shifted row is right. -/
theorem C79_shift_count (w : World) (hw : SafeRun w) (i : Nat) (n : Int) (p : Heap × Row) (h : shift w.heap (w.row i) n = some p) :
    count p.2 = (w.cols i).length := by
  obtain ⟨⟨own, ho⟩, _, hc⟩ := safeRun_inv hw
  obtain ⟨_, hs⟩ := shiftLoop_spec n.toNat w.heap (w.row i) fun s hs => ((row_ok ho i).2 s hs).1
  have hn : ¬ n < 0 := fun hn => by rw [shift, if_pos hn] at h; cases h
  rw [shift, if_neg hn] at h
  cases h
  rw [shifted_count hs (hc.row i), shifted_columns hs]
  simp [World.cols]

/-- The last column of a shard, shifted by one, is listed but not included. -/
example : ∃ p, shift (run [.new [1048575]]).heap ((run [.new [1048575]]).row 0) 1 = some p ∧ columns p.1 p.2 = [1048576] ∧
    includes p.1 p.2 1048576 = false := ⟨_, rfl, by decide +kernel, by decide +kernel⟩

/-! ## Clearing and freezing -/

structure ClearSpec (h : Heap) (r : Row) (c : Nat) (h' : Heap) (r' : Row) (changed : Bool) : Prop where
  cols : columns h' r' = (columns h r).filter fun x => decide (x ≠ c)
  frame : ∀ p, p < h.length → (¬ ∃ s ∈ r, s.data = p ∧ s.writable = true) → rd h' p = rd h p
  cnt : (∀ s ∈ r, s.n = (rd h s.data).length) → ∀ s ∈ r', s.n = (rd h' s.data).length
  changed : changed = decide (c ∈ columns h r)
  /-- only one bitmap is written, of the segment with this shard -/
  only : ∀ p, p < h.length → (∀ s ∈ r, s.data = p → s.shard ≠ c / shardWidth) → rd h' p = rd h p

theorem length_filter_ne {b : Bm} (hb : b.Ok) {c : Nat} (hc : c ∈ b) : (b.filter fun x => decide (x ≠ c)).length = b.length - 1 := by
  induction b with
  | nil => cases hc
  | cons a b ih =>
    rw [Bm.Ok, List.pairwise_cons] at hb
    by_cases e : a = c
    · subst e
      have : ∀ x ∈ b, x ≠ a := fun x hx => by have := hb.1 x hx; omega
      rw [List.filter_cons_of_neg (by simp), List.filter_eq_self.2 (by simpa using this)]
      rfl
    · have hc' : c ∈ b := (List.mem_cons.1 hc).resolve_left fun h => e h.symm
      have := List.length_pos_of_mem hc'
      rw [List.filter_cons_of_pos (by simpa using e), List.length_cons, ih hb.2 hc', List.length_cons]
      omega

theorem columns_cons (h : Heap) (s : Seg) (r : Row) : columns h (s :: r) = rd h s.data ++ columns h r := by simp [columns]

theorem segClear_spec {own h s} (c : Nat) (hh : HOk own h) (hd : s.data < h.length) :
    (segClearBit h s c).2.1.shard = s.shard ∧
    rd (segClearBit h s c).1 (segClearBit h s c).2.1.data = (rd h s.data).filter (fun x => decide (x ≠ c)) ∧
    (∀ p, p < h.length → (s.writable = true → p ≠ s.data) → rd (segClearBit h s c).1 p = rd h p) ∧
    (s.n = (rd h s.data).length → (segClearBit h s c).2.1.n = (rd (segClearBit h s c).1 (segClearBit h s c).2.1.data).length) ∧
    (segClearBit h s c).2.2 = decide (c ∈ rd h s.data) := by
  have hw : ∃ h1 s1, ensureWritable h s = (h1, s1) ∧ s1.shard = s.shard ∧ s1.n = s.n ∧ s1.data < h1.length ∧ rd h1 s1.data = rd h s.data ∧
      (∀ p, p < h.length → (s.writable = true → p ≠ s.data) → rd h1 p = rd h p ∧ p ≠ s1.data) := by
    unfold ensureWritable
    by_cases hw : s.writable = true
    · exact ⟨h, s, by simp [hw], rfl, rfl, hd, rfl, fun p _ hp => ⟨rfl, hp hw⟩⟩
    · refine ⟨h ++ [rd h s.data], { s with data := h.length, writable := true }, if_neg hw, rfl, rfl, by simp, rd_new _ _,
        fun p hp _ => ⟨rd_append hp, ?_⟩⟩
      show p ≠ h.length
      omega
  obtain ⟨h1, s1, e, e1, e2, e3, e4, e5⟩ := hw
  unfold segClearBit
  simp only [e, e4]
  by_cases hc : c ∈ rd h s.data
  · rw [if_pos hc]
    refine ⟨e1, ?_, fun p hp hn => ?_, fun hn => ?_, by simp [hc]⟩
    · simp only [rd_set e3, if_true]
    · simp only [rd_set e3]
      rw [if_neg (Ne.symm (e5 p hp hn).2), (e5 p hp hn).1]
    · simp only [rd_set e3, if_true]
      rw [length_filter_ne (hh _).1 hc, e2, hn]
  · rw [if_neg hc]
    refine ⟨e1, ?_, fun p hp hn => (e5 p hp hn).1, fun hn => ?_, by simp [hc]⟩
    · simp only [e4]
      rw [List.filter_eq_self.2]
      intro x hx
      simp only [ne_eq, decide_eq_true_eq]
      rintro rfl
      exact hc hx
    · simp only [e4, e2, hn]

theorem clearBit_spec {own h} (c : Nat) : ∀ {r : Row}, HOk own h → ROk own h r →
    ClearSpec h r c (clearBit h c r).1 (clearBit h c r).2.1 (clearBit h c r).2.2
  | [], _, _ => ⟨rfl, fun _ _ _ => rfl, id, rfl, fun _ _ _ => rfl⟩
  | s :: r, hh, hr => by
    have hs := hr.2 s (by simp)
    have hr' : ROk own h r := ⟨(List.pairwise_cons.1 hr.1).2, fun t ht => hr.2 t (by simp [ht])⟩
    have hlt : ∀ t ∈ r, s.shard < t.shard := (List.pairwise_cons.1 hr.1).1
    have hdata : ∀ t ∈ r, t.data ≠ s.data := fun t ht e => by
      have h1 := hlt t ht
      have h2 := (hr.2 t (by simp [ht])).2
      rw [e, hs.2] at h2
      omega
    by_cases e : s.shard = c / shardWidth
    · obtain ⟨g1, g2, g3, g4, g5⟩ := segClear_spec (s := s) c hh hs.1
      have hrest : ∀ t ∈ r, rd (segClearBit h s c).1 t.data = rd h t.data := fun t ht => g3 _ (hr.2 t (by simp [ht])).1 fun _ => hdata t ht
      have hno : c ∉ columns h r := fun hc => by
        obtain ⟨t, ht, hx⟩ := mem_columns.1 hc
        have := seg_bits hh hr' ht hx
        have := hlt t ht
        omega
      simp only [clearBit, if_pos e]
      refine ⟨?_, fun p hp hn => ?_, fun hc => ?_, ?_, fun p hp hn => ?_⟩
      · rw [columns_cons, columns_cons, g2, columns_congr hrest, List.filter_append]
        congr 1
        rw [List.filter_eq_self.2]
        intro x hx
        simp only [ne_eq, decide_eq_true_eq]
        rintro rfl
        exact hno hx
      · exact g3 p hp fun hw hps => hn ⟨s, by simp, hps.symm, hw⟩
      · intro t ht
        rcases List.mem_cons.1 ht with rfl | ht
        · exact g4 (hc s (by simp))
        · rw [hrest t ht]; exact hc t (by simp [ht])
      · rw [g5, columns_cons]
        simp [hno]
      · exact g3 p hp fun _ hps => hn s (by simp) hps.symm e
    · obtain ⟨i1, i2, i3, i4, i5⟩ := clearBit_spec c hh hr'
      have hself : rd (clearBit h c r).1 s.data = rd h s.data := i5 _ hs.1 fun t ht ht' => absurd ht' (hdata t ht)
      have hno : c ∉ rd h s.data := fun hx => e (seg_bits hh hr (by simp) hx).symm
      simp only [clearBit, if_neg e]
      refine ⟨?_, fun p hp hn => ?_, fun hc => ?_, ?_, fun p hp hn => ?_⟩
      · rw [columns_cons, columns_cons, hself, i1, List.filter_append]
        congr 1
        symm
        rw [List.filter_eq_self]
        intro x hx
        simp only [ne_eq, decide_eq_true_eq]
        rintro rfl
        exact hno hx
      · exact i2 p hp fun ⟨t, ht, h1⟩ => hn ⟨t, by simp [ht], h1⟩
      · intro t ht
        rcases List.mem_cons.1 ht with rfl | ht
        · rw [hself]; exact hc _ (by simp)
        · exact i3 (fun t ht => hc t (by simp [ht])) t ht
      · rw [i4, columns_cons]
        simp [hno]
      · exact i5 p hp fun t ht => hn t (by simp [ht])

/-- **C79**: in a program whose calls are safe, clearing a column removes this column from this row and nothing else, keeps the count
right, and reports whether it was there. -/
theorem C79_clear (w : World) (hw : SafeRun w) (i c : Nat) (hi : i < w.rows.length) :
    let p := clearBit w.heap c (w.row i)
    let w' := w.put i (p.1, p.2.1)
    w'.cols i = (w.cols i).filter (fun x => decide (x ≠ c)) ∧ count (w'.row i) = (w'.cols i).length ∧
      (p.2.2 = true ↔ c ∈ w.cols i) ∧ ∀ j, j ≠ i → w'.cols j = w.cols j ∧ w'.row j = w.row j := by
  intro p w'
  obtain ⟨⟨own, ho⟩, hsep, hc⟩ := safeRun_inv hw
  have sp := clearBit_spec c ho.1 (row_ok ho i)
  have hrow : w'.row i = p.2.1 := by rw [row_put, if_pos ⟨rfl, hi⟩]
  have hcols : w'.cols i = columns p.1 p.2.1 := by unfold World.cols; rw [hrow]; rfl
  refine ⟨hcols.trans sp.cols, ?_, ?_, fun j hj => ?_⟩
  · rw [hrow, hcols]
    have hn := sp.cnt (hc.row i)
    have : ∀ l : Row, (∀ s ∈ l, s.n = (rd p.1 s.data).length) → count l = (columns p.1 l).length := by
      intro l hl
      induction l with
      | nil => rfl
      | cons s l ih =>
        simp only [count, columns, List.map_cons, List.sum_cons, List.flatMap_cons, List.length_append] at *
        rw [hl s (by simp), ih fun t ht => hl t (by simp [ht])]
    exact this _ hn
  · rw [show p.2.2 = _ from sp.changed, decide_eq_true_eq]; rfl
  · have hr : w'.row j = w.row j := by rw [row_put, if_neg fun h => hj h.1]
    refine ⟨?_, hr⟩
    unfold World.cols
    rw [hr]
    exact columns_congr (untouched ho hsep hj sp.frame)

/-- Witness: clearing a column of a safe program with two rows. -/
example : SafeRun (step (step { heap := [], rows := [] } (.new [5, 7, 1048577])) (.new [5])) ∧
    (clearBit (run [.new [5, 7, 1048577], .new [5]]).heap 5 ((run [.new [5, 7, 1048577], .new [5]]).row 0)).2.2 = true :=
  ⟨SafeRun.step _ (SafeRun.step _ .init trivial) trivial, by decide +kernel⟩

/-- **C79**: `Freeze` leaves the row as it was: its segments still point to the bitmaps they may write. -/
theorem C79_freeze (h : Heap) (r : Row) : (freeze h r).2 = r ∧ ∃ t, (freeze h r).1 = h ++ t := by
  induction r generalizing h with
  | nil => exact ⟨rfl, [], by simp [freeze]⟩
  | cons s r ih =>
    obtain ⟨h1, t, h2⟩ := ih (h ++ [rd h s.data])
    exact ⟨by simp only [freeze, h1], [rd h s.data] ++ t, by simp only [freeze, h2, List.append_assoc]⟩

/-- So a bit set after `Freeze` is still seen by everyone who shares the segment: here row 1, frozen, changes when the union is written. -/
example : let w := run [.new [], .new [5]]
    let f := freeze w.heap (w.row 1)
    let w1 : World := { heap := f.1, rows := w.rows.set 1 f.2 }
    (step (step w1 (.union 0 [1])) (.setBit 2 9)).cols 1 = [5, 9] := by decide +kernel

/-- **C79**: what the accessors of a value return. A string or an integer reads as itself, a missing one as the empty string or 0; a timestamp
reads as the signed number of the same 64 bits, a missing one as the zero time. -/
theorem C79_values (s : Bytes) (n t : Nat) (ht : t < 2 ^ 64) (v : Val) : (stringValue s).toStr = s ∧ (stringValue s).toInt = 0 ∧
    (intValue n).toInt = n ∧ (intValue n).toStr = [] ∧ (v.str = some s → v.toStr = s) ∧ (v.str = none → v.toStr = []) ∧
    (v.int = some n → v.toInt = n) ∧ (v.int = none → v.toInt = 0) ∧ (v.time = none → v.toTime = none) ∧
    (v.time = some t → ∃ i : Int, v.toTime = some i ∧ -(2 ^ 63) ≤ i ∧ i < 2 ^ 63 ∧ ∃ q : Int, (t : Int) = i + q * 2 ^ 64) := by
  refine ⟨rfl, rfl, rfl, rfl, fun h => by rw [Val.toStr, h]; rfl, fun h => by rw [Val.toStr, h]; rfl, fun h => by rw [Val.toInt, h]; rfl,
    fun h => by rw [Val.toInt, h]; rfl, fun h => by rw [Val.toTime, h]; rfl, fun h => ?_⟩
  rw [Val.toTime, h]
  by_cases hl : t < 2 ^ 63
  · exact ⟨t, (congrArg some (if_pos (show (t : Int) < 2 ^ 63 by omega))), by omega, by omega, 0, by omega⟩
  · exact ⟨(t : Int) - 2 ^ 64, (congrArg some (if_neg (show ¬ (t : Int) < 2 ^ 63 by omega))), by omega, by omega, 1, by omega⟩

/-- Witness: a moment before 1970. -/
example : ({ time := some (2 ^ 64 - 1) } : Val).toTime = some (-1) ∧ ({ time := some 5 } : Val).toTime = some 5 := by decide +kernel

end Verif.Rw
