import Verif.Lemmas.Batch
import Verif.Lemmas.Rows5
import Verif.Spec.Shards
import Mathlib.Data.List.Induction
import Mathlib.Tactic.Tauto
/-!
# Facts about shards
-/
namespace Verif.Sh
open Bt (shardWidth Frags)
open Rw (Heap Row)

theorem mem_bits_addRoaring {f : Frags} {s s' : Nat} {w : Bytes × Bm} {v : Bytes} {p : Nat} :
    p ∈ (addRoaring f s w).bits s' v ↔ (s = s' ∧ w.1 = v ∧ p ∈ w.2) ∨ p ∈ f.bits s' v := by
  unfold addRoaring Frags.bits
  simp only [AMap.get_set]
  by_cases hs : s = s'
  · subst hs
    simp only [if_true, Option.getD_some, AMap.get_set]
    by_cases hv : w.1 = v
    · subst hv; simp [Bm.mem_or, or_comm]
    · simp [hv]
  · simp [hs]

theorem mem_bits_addAll {s s' : Nat} {ws : List (Bytes × Bm)} {v : Bytes} {p : Nat} (f : Frags) :
    p ∈ (ws.foldl (fun f w => addRoaring f s w) f).bits s' v ↔ (s = s' ∧ ∃ b, (v, b) ∈ ws ∧ p ∈ b) ∨ p ∈ f.bits s' v := by
  induction ws generalizing f with
  | nil => simp
  | cons w ws ih =>
    rw [List.foldl_cons, ih, mem_bits_addRoaring]
    constructor
    · rintro (⟨rfl, b, hb, hp⟩ | ⟨rfl, rfl, hp⟩ | h)
      · exact .inl ⟨rfl, b, List.mem_cons_of_mem _ hb, hp⟩
      · exact .inl ⟨rfl, w.2, List.mem_cons_self .., hp⟩
      · exact .inr h
    · rintro (⟨rfl, b, hb, hp⟩ | h)
      · rcases List.mem_cons.1 hb with e | hb
        · subst e; exact .inr (.inl ⟨rfl, rfl, hp⟩)
        · exact .inl ⟨rfl, b, hb, hp⟩
      · exact .inr (.inr h)

theorem run_snoc (ops : List Op) (op : Op) : run (ops ++ [op]) = step (run ops) op := by simp [run]

theorem mem_disk_run (ops : List Op) (k : Nat) (v : Bytes) (p : Nat) :
    p ∈ (run ops).disk.bits k v ↔ ∃ op ∈ ops, op.Writes v p k := by
  induction ops using List.reverseRecOn with
  | nil => simp [run, Store.new, Frags.bits, AMap.get]
  | append_singleton ops op ih =>
    rw [run_snoc]
    simp only [List.mem_append, List.mem_singleton, or_and_right, exists_or, exists_eq_left]
    rw [← ih]
    have hget : ∀ (s : Store) k, (s.get k).disk = s.disk := fun s k => by unfold Store.get; split <;> rfl
    cases op with
    | update k' ws ok =>
      cases ok
      · simp [step, Store.update, hget, Op.Writes]
      · simp only [step, Store.update, if_true, hget, Op.Writes]
        rw [mem_bits_addAll, or_comm]
    | view k' => simp [step, Store.view, hget, Op.Writes]
    | restart => simp [step, Store.restart, Store.new, Op.Writes]

theorem open_snoc (ops : List Op) (op : Op) (k : Nat) :
    Open (ops ++ [op]) k ↔ op.Touches k ∨ (op ≠ .restart ∧ Open ops k) := by
  constructor
  · rintro ⟨pre, o, suf, e, ht, hn⟩
    rcases List.eq_nil_or_concat suf with rfl | ⟨suf', o', rfl⟩
    · have := (List.append_inj_right' e rfl)
      simp only [List.cons.injEq, and_true] at this
      subst this; exact .inl ht
    · rw [List.concat_eq_append] at e hn
      rw [← List.cons_append, ← List.append_assoc] at e
      have h1 := (List.append_inj_right' e rfl)
      have h2 := (List.append_inj_left' e rfl)
      simp only [List.cons.injEq, and_true] at h1
      subst h1
      refine .inr ⟨fun h => hn (by simp [h]), pre, o, suf', h2, ht, fun h => hn (by simp [h])⟩
  · rintro (h | ⟨hn, pre, o, suf, e, ht, hs⟩)
    · exact ⟨ops, op, [], rfl, h, by simp⟩
    · refine ⟨pre, o, suf ++ [op], by simp [e], ht, ?_⟩
      simp only [List.mem_append, List.mem_singleton, not_or]
      exact ⟨hs, fun h => hn h.symm⟩

theorem mem_opened_run (ops : List Op) (k : Nat) : k ∈ (run ops).opened ↔ Open ops k := by
  induction ops using List.reverseRecOn with
  | nil =>
    simp only [run, Store.new, List.foldl_nil, List.not_mem_nil, false_iff]
    rintro ⟨pre, op, suf, e, _⟩
    simp at e
  | append_singleton ops op ih =>
    rw [run_snoc, open_snoc, ← ih]
    have hget : ∀ (s : Store) k', k ∈ (s.get k').opened ↔ k' = k ∨ k ∈ s.opened := fun s k' => by
      unfold Store.get; split
      · rename_i h
        constructor
        · exact .inr
        · rintro (rfl | h')
          · exact h
          · exact h'
      · simp [eq_comm]
    cases op with
    | update k' ws ok =>
      have : (step (run ops) (.update k' ws ok)).opened = ((run ops).get k').opened := by
        cases ok <;> rfl
      rw [this, hget]; simp [Op.Touches]
    | view k' => simp [step, Store.view, hget, Op.Touches]
    | restart => simp [step, Store.restart, Store.new, Op.Touches]

theorem nodup_opened_run (ops : List Op) : (run ops).opened.Nodup := by
  induction ops using List.reverseRecOn with
  | nil => simp [run, Store.new]
  | append_singleton ops op ih =>
    rw [run_snoc]
    have hget : ∀ (s : Store) k', s.opened.Nodup → (s.get k').opened.Nodup := fun s k' h => by
      unfold Store.get; split
      · exact h
      · rename_i hn; exact List.nodup_cons.2 ⟨hn, h⟩
    cases op with
    | update k' ws ok =>
      have : (step (run ops) (.update k' ws ok)).opened = ((run ops).get k').opened := by
        cases ok <;> rfl
      rw [this]; exact hget _ _ ih
    | view k' => exact hget _ _ ih
    | restart => simp [step, Store.restart, Store.new]

/-! ### Rows -/

theorem mem_matchRows {bm : Bm} {cols : List Nat} {u : Nat} (hc : cols ≠ []) :
    u ∈ matchRows bm cols ↔ ∀ c ∈ cols, u * shardWidth + c % shardWidth ∈ bm := by
  unfold matchRows
  simp only [List.mem_filter, Bm.mem_foldl_add, List.not_mem_nil, false_or, List.mem_map, List.all_eq_true, decide_eq_true_eq]
  constructor
  · exact fun h => h.2
  · intro h
    refine ⟨?_, h⟩
    obtain ⟨c, hc⟩ := List.exists_mem_of_ne_nil _ hc
    refine ⟨_, h c hc, ?_⟩
    have : c % shardWidth < shardWidth := Nat.mod_lt _ (by decide)
    rw [Nat.mul_comm, Nat.mul_add_div (by decide), Nat.div_eq_of_lt this, Nat.add_zero]

theorem matchRows_ok {bm : Bm} {cols : List Nat} : (matchRows bm cols).Ok :=
  List.Pairwise.filter _ (Bm.foldl_add_ok Bm.nil_ok)

theorem mem_shardRows {f : Frags} {k : Nat} {views : List Bytes} {cols : List Nat} {u : Nat} (hc : cols ≠ []) :
    u ∈ shardRows f k views cols ↔ ∃ v ∈ views, ∀ c ∈ cols, u * shardWidth + c % shardWidth ∈ f.bits k v := by
  have key : ∀ (b : Bm), u ∈ views.foldl (fun b v => b.or (matchRows (f.bits k v) cols)) b ↔
      u ∈ b ∨ ∃ v ∈ views, ∀ c ∈ cols, u * shardWidth + c % shardWidth ∈ f.bits k v := by
    induction views with
    | nil => simp
    | cons v vs ih =>
      intro b
      rw [List.foldl_cons, ih, Bm.mem_or, mem_matchRows hc]
      simp [or_assoc]
  rw [shardRows, key]; simp

theorem shardRows_ok {f : Frags} {k : Nat} {views : List Bytes} {cols : List Nat} : (shardRows f k views cols).Ok := by
  have key : ∀ (b : Bm), b.Ok → (views.foldl (fun b v => b.or (matchRows (f.bits k v) cols)) b).Ok := by
    induction views with
    | nil => exact fun b h => h
    | cons v vs ih => exact fun b h => ih _ (Bm.or_ok h)
  exact key [] Bm.nil_ok

/-- The loop, as a set. -/
theorem mem_rowsLoop {s : Store} {views : List Bytes} (m : AMap Nat (List Nat)) (r : Option Bm) (u : Nat) :
    u ∈ (rowsLoop s views m r).getD [] ↔
      (∀ e ∈ m, e.1 ∈ s.opened) ∧ (∀ b, r = some b → u ∈ b) ∧
      (r.isSome ∨ ∃ e ∈ m, shardRows s.disk e.1 views e.2 ≠ []) ∧
      ∀ e ∈ m, shardRows s.disk e.1 views e.2 ≠ [] → u ∈ shardRows s.disk e.1 views e.2 := by
  induction m generalizing r with
  | nil => cases r <;> simp [rowsLoop]
  | cons e m ih =>
    obtain ⟨k, f⟩ := e
    unfold rowsLoop
    by_cases hk : k ∈ s.opened
    · simp only [hk, not_true_eq_false, if_false]
      by_cases hb : shardRows s.disk k views f = []
      · simp only [hb, if_true]
        rw [ih]; simp [hk, hb]
      · simp only [hb, if_false]
        cases r with
        | none =>
          simp only []
          rw [ih]
          simp [hk, hb]
        | some r0 =>
          simp only []
          split
          · rename_i h
            simp only [Option.getD_some, List.not_mem_nil, false_iff, List.forall_mem_cons, Option.some.injEq, forall_eq',
              Option.isSome_some, true_or, true_and, hb, not_false_eq_true, ne_eq, forall_const, not_and]
            intro _ hu hu'
            exact absurd (Bm.mem_and.2 ⟨hu, hu'⟩) (by simp [h.1])
          · rw [ih]
            simp only [List.forall_mem_cons, hk, true_and, Option.some.injEq, forall_eq', Option.isSome_some, true_or, hb,
              not_false_eq_true, ne_eq, forall_const, Bm.mem_and]
            tauto
    · simp only [hk, not_false_eq_true, if_true]
      simp only [List.forall_mem_cons, hk, false_and, iff_false]
      cases r <;> simp

theorem rowsLoop_ok {s : Store} {views : List Bytes} (m : AMap Nat (List Nat)) (r : Option Bm) (hr : Bm.Ok (r.getD [])) :
    Bm.Ok ((rowsLoop s views m r).getD []) := by
  induction m generalizing r with
  | nil => exact hr
  | cons e m ih =>
    obtain ⟨k, f⟩ := e
    unfold rowsLoop
    split
    · cases r <;> exact Bm.nil_ok
    · simp only []
      split
      · exact ih _ hr
      · cases r with
        | none => exact ih _ shardRows_ok
        | some r0 =>
          simp only []
          split
          · exact Bm.nil_ok
          · exact ih _ (Bm.and_ok hr)

theorem get_groupCols (cols : List Nat) (k : Nat) :
    (groupCols cols).get k = if (cols.filter fun c => decide (c / shardWidth = k)) = [] then none
      else some (cols.filter fun c => decide (c / shardWidth = k)) := by
  induction cols using List.reverseRecOn with
  | nil => simp [groupCols, AMap.get]
  | append_singleton cols c ih =>
    have : groupCols (cols ++ [c]) = (groupCols cols).set (c / shardWidth) ((((groupCols cols).get (c / shardWidth)).getD []) ++ [c]) := by
      simp [groupCols]
    rw [this, AMap.get_set]
    by_cases hk : c / shardWidth = k
    · subst hk
      rw [if_pos rfl, ih]
      simp only [List.filter_append, List.filter_cons, List.filter_nil, decide_true, if_true]
      by_cases he : (cols.filter fun x => decide (x / shardWidth = c / shardWidth)) = [] <;> simp [he]
    · rw [if_neg hk, ih]
      simp [List.filter_append, hk]

theorem groupCols_ok (cols : List Nat) : (groupCols cols).Ok := by
  induction cols using List.reverseRecOn with
  | nil => simp [groupCols, AMap.Ok]
  | append_singleton cols c ih =>
    have : groupCols (cols ++ [c]) = (groupCols cols).set (c / shardWidth) ((((groupCols cols).get (c / shardWidth)).getD []) ++ [c]) := by
      simp [groupCols]
    rw [this]; exact AMap.set_ok ih _ _

theorem mem_groupCols {cols : List Nat} {e : Nat × List Nat} :
    e ∈ groupCols cols ↔ (∃ c ∈ cols, c / shardWidth = e.1) ∧ e.2 = cols.filter fun c => decide (c / shardWidth = e.1) := by
  have h : e ∈ groupCols cols ↔ (groupCols cols).get e.1 = some e.2 :=
    ⟨fun h => AMap.get_of_mem (groupCols_ok cols) h, fun h => AMap.mem_of_get h⟩
  rw [h, get_groupCols]
  by_cases he : (cols.filter fun c => decide (c / shardWidth = e.1)) = []
  · simp only [he, if_true, reduceCtorEq, false_iff, not_and, forall_exists_index, and_imp]
    intro c hc hk
    have := (List.mem_filter (p := fun c => decide (c / shardWidth = e.1))).2 ⟨hc, by simpa using hk⟩
    rw [he] at this; simp at this
  · simp only [he, if_false, Option.some.injEq]
    constructor
    · intro h
      obtain ⟨c, hc⟩ := List.exists_mem_of_ne_nil _ he
      simp only [List.mem_filter, decide_eq_true_eq] at hc
      exact ⟨⟨c, hc.1, hc.2⟩, h.symm⟩
    · exact fun h => h.2.symm

end Verif.Sh

namespace Verif.Sh
open Bt (shardWidth Frags)
open Rw (Heap Row HOk ROk Ext)

theorem rowLoop_spec {own : Nat → Nat} {h : Heap} {r : Row} (f : Frags) (view : Bytes) (id : Nat) (order : List Nat)
    (hh : HOk own h) (hr : ROk own h r) :
    ∃ own', HOk own' (rowLoop f view id order h r).1 ∧ ROk own' (rowLoop f view id order h r).1 (rowLoop f view id order h r).2 ∧
      ∀ x, x ∈ Rw.columns (rowLoop f view id order h r).1 (rowLoop f view id order h r).2 ↔
        x ∈ Rw.columns h r ∨ ∃ k ∈ order, ∃ p ∈ f.bits k view, p / shardWidth = id ∧ x = k * shardWidth + p % shardWidth := by
  induction order generalizing own h r with
  | nil => exact ⟨own, hh, hr, by simp [rowLoop]⟩
  | cons k ks ih =>
    unfold rowLoop
    simp only []
    obtain ⟨b1, b2, b3⟩ := Rw.ofShard_build h k (((f.bits k view).filter fun p => decide (p / shardWidth = id)).map (· % shardWidth))
    have b1' : rowOf f view k id h = _ := b1
    obtain ⟨own1, t, s1, s2, s3, s4, s5, _⟩ := Rw.build_spec _ hh (List.pairwise_singleton _ _)
      (fun i hi => by rw [List.mem_singleton.1 hi]; exact b2 own)
    rw [← b1'] at s1 s4 s5
    rw [← s1] at s2 s3 s4 s5
    have hr1 := hr.ext s2
    obtain ⟨own2, ms⟩ := Rw.merge_spec s3 hr1 s4
    obtain ⟨own3, i1, i2, i3⟩ := ih ms.hok ms.rok
    refine ⟨own3, i1, i2, fun x => ?_⟩
    rw [i3, ms.mem]
    have e1 : Rw.columns (rowOf f view k id h).1 r = Rw.columns h r := by rw [s1]; exact Rw.columns_append hr t
    have e2 : x ∈ Rw.columns (rowOf f view k id h).1 (rowOf f view k id h).2 ↔
        ∃ p ∈ f.bits k view, p / shardWidth = id ∧ x = k * shardWidth + p % shardWidth := by
      rw [s5]
      simp only [List.flatMap_cons, List.flatMap_nil, List.append_nil, Rw.Item.bits]
      rw [b3]
      constructor
      · rintro ⟨o, ho, rfl⟩
        obtain ⟨p, hp, rfl⟩ := List.mem_map.1 ho
        simp only [List.mem_filter, decide_eq_true_eq] at hp
        exact ⟨p, hp.1, hp.2, by rw [Nat.mod_mod]⟩
      · rintro ⟨p, hp, hi, rfl⟩
        exact ⟨p % shardWidth, List.mem_map.2 ⟨p, List.mem_filter.2 ⟨hp, by simpa using hi⟩, rfl⟩, by rw [Nat.mod_mod]⟩
    rw [e1, e2]
    simp only [List.mem_cons, exists_eq_or_imp, or_assoc]

theorem rowLoop_ok (f : Frags) (view : Bytes) (id : Nat) (order : List Nat) :
    ∃ own', HOk own' (rowLoop f view id order [] []).1 ∧ ROk own' (rowLoop f view id order [] []).1 (rowLoop f view id order [] []).2 := by
  obtain ⟨o, h1, h2, _⟩ := rowLoop_spec (own := fun _ => 0) (h := []) (r := []) f view id order
    (fun p => ⟨by simp [Rw.rd, Bm.Ok], by simp [Rw.rd]⟩) ⟨List.Pairwise.nil, by simp⟩
  exact ⟨o, h1, h2⟩

theorem mem_rowColumns (s : Store) (view : Bytes) (id : Nat) (order : List Nat) (x : Nat) :
    x ∈ s.rowColumns view id order ↔
      x / shardWidth ∈ order ∧ id * shardWidth + x % shardWidth ∈ s.disk.bits (x / shardWidth) view := by
  unfold Store.rowColumns
  obtain ⟨_, _, _, h⟩ := rowLoop_spec (own := fun _ => 0) (h := []) (r := []) s.disk view id order
    (fun p => ⟨by simp [Rw.rd, Bm.Ok], by simp [Rw.rd]⟩) ⟨List.Pairwise.nil, by simp⟩
  simp only []
  rw [h]
  simp only [Rw.columns, List.flatMap_nil, List.not_mem_nil, false_or]
  constructor
  · rintro ⟨k, hk, p, hp, rfl, rfl⟩
    have hlt : p % shardWidth < shardWidth := Nat.mod_lt _ (by decide)
    have h1 : (k * shardWidth + p % shardWidth) / shardWidth = k := by
      rw [Nat.mul_comm, Nat.mul_add_div (by decide), Nat.div_eq_of_lt hlt, Nat.add_zero]
    have h2 : (k * shardWidth + p % shardWidth) % shardWidth = p % shardWidth := by
      rw [Nat.mul_comm, Nat.mul_add_mod, Nat.mod_mod]
    rw [h1, h2]
    refine ⟨hk, ?_⟩
    rw [Nat.mul_comm, Nat.div_add_mod]; exact hp
  · rintro ⟨h1, h2⟩
    have hlt : x % shardWidth < shardWidth := Nat.mod_lt _ (by decide)
    refine ⟨_, h1, _, h2, ?_, ?_⟩
    · rw [Nat.mul_comm, Nat.mul_add_div (by decide), Nat.div_eq_of_lt hlt, Nat.add_zero]
    · rw [Nat.mul_comm id, Nat.mul_add_mod, Nat.mod_mod, Nat.mul_comm, Nat.div_add_mod]

end Verif.Sh
