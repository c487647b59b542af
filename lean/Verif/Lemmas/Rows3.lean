import Verif.Lemmas.Rows2
import Verif.Spec.Rows
/-!
# Union, SetBit and Merge
-/
namespace Verif.Rw
open Bt (shardWidth)

/-! ## Union -/

/-- The lists `Row.Union` works on: non-empty, proper. -/
def LOk (own : Nat → Nat) (h : Heap) (l : List Row) : Prop := ∀ r ∈ l, r ≠ [] ∧ ROk own h r

theorem lowest_aux (rest : List Row) (m : Nat) :
    let v := rest.foldl (fun m s => match s with
      | [] => m
      | x :: _ => if x.shard < m then x.shard else m) m
    v ≤ m ∧ (∀ x t, (x :: t) ∈ rest → v ≤ x.shard) ∧ (v = m ∨ ∃ x t, (x :: t) ∈ rest ∧ x.shard = v) := by
  induction rest generalizing m with
  | nil => simp
  | cons a rest ih =>
    simp only [List.foldl_cons]
    cases a with
    | nil =>
      obtain ⟨h1, h2, h3⟩ := ih m
      refine ⟨h1, fun x t hx => ?_, ?_⟩
      · rcases List.mem_cons.1 hx with e | hx
        · cases e
        · exact h2 x t hx
      · rcases h3 with h3 | ⟨x, t, hx, e⟩
        · exact Or.inl h3
        · exact Or.inr ⟨x, t, List.mem_cons_of_mem _ hx, e⟩
    | cons y u =>
      simp only
      by_cases hlt : y.shard < m
      · simp only [hlt, if_true]
        obtain ⟨h1, h2, h3⟩ := ih y.shard
        refine ⟨by omega, fun x t hx => ?_, ?_⟩
        · rcases List.mem_cons.1 hx with e | hx
          · cases e; exact h1
          · exact h2 x t hx
        · rcases h3 with h3 | ⟨x, t, hx, e⟩
          · exact Or.inr ⟨y, u, by simp, h3.symm⟩
          · exact Or.inr ⟨x, t, List.mem_cons_of_mem _ hx, e⟩
      · simp only [hlt, if_false]
        obtain ⟨h1, h2, h3⟩ := ih m
        refine ⟨h1, fun x t hx => ?_, ?_⟩
        · rcases List.mem_cons.1 hx with e | hx
          · cases e; omega
          · exact h2 x t hx
        · rcases h3 with h3 | ⟨x, t, hx, e⟩
          · exact Or.inl h3
          · exact Or.inr ⟨x, t, List.mem_cons_of_mem _ hx, e⟩

theorem lowest_spec {own h l} (hl : LOk own h l) (hne : l ≠ []) :
    (∀ x t, (x :: t) ∈ l → lowest l ≤ x.shard) ∧ ∃ x t, (x :: t) ∈ l ∧ x.shard = lowest l := by
  cases l with
  | nil => exact absurd rfl hne
  | cons a rest =>
    have ha := (hl a (by simp)).1
    cases a with
    | nil => exact absurd rfl ha
    | cons y u =>
      obtain ⟨h1, h2, h3⟩ := lowest_aux rest y.shard
      simp only [lowest, List.head?_cons, Option.map_some, Option.getD_some]
      refine ⟨fun x t hx => ?_, ?_⟩
      · rcases List.mem_cons.1 hx with e | hx
        · cases e; exact h1
        · exact h2 x t hx
      · rcases h3 with h3 | ⟨x, t, hx, e⟩
        · exact ⟨y, u, by simp, h3.symm⟩
        · exact ⟨x, t, List.mem_cons_of_mem _ hx, e⟩

theorem mem_toProcess {k : Nat} {l : List Row} {s : Seg} : s ∈ toProcess k l ↔ s.shard = k ∧ ∃ t, (s :: t) ∈ l := by
  simp only [toProcess, List.mem_filterMap]
  constructor
  · rintro ⟨a, ha, e⟩
    cases a with
    | nil => simp at e
    | cons x t =>
      simp only at e
      split at e
      · rename_i hk; cases e; exact ⟨hk, t, ha⟩
      · cases e
  · rintro ⟨hk, t, ht⟩; exact ⟨_, ht, by simp [hk]⟩

theorem mem_nextSegs {k : Nat} {l : List Row} {r : Row} :
    r ∈ nextSegs k l ↔ r ≠ [] ∧ ((∃ x, x.shard = k ∧ (x :: r) ∈ l) ∨ (∃ x t, r = x :: t ∧ x.shard ≠ k ∧ (x :: t) ∈ l)) := by
  simp only [nextSegs, List.mem_filterMap]
  constructor
  · rintro ⟨a, ha, e⟩
    cases a with
    | nil => simp at e
    | cons x t =>
      simp only at e
      split at e
      · rename_i hk
        split at e
        · cases e
        · rename_i hne; cases e; exact ⟨hne, Or.inl ⟨x, hk, ha⟩⟩
      · rename_i hk; cases e; exact ⟨by simp, Or.inr ⟨x, t, rfl, hk, ha⟩⟩
  · rintro ⟨hne, ⟨x, hk, hx⟩ | ⟨x, t, rfl, hk, hx⟩⟩
    · exact ⟨_, hx, by simp [hk, hne]⟩
    · exact ⟨_, hx, by simp [hk]⟩

theorem nextSegs_ok {own h l} (hl : LOk own h l) (k : Nat) : LOk own h (nextSegs k l) := by
  intro r hr
  obtain ⟨hne, ⟨x, _, hx⟩ | ⟨x, t, rfl, _, hx⟩⟩ := mem_nextSegs.1 hr
  · have := (hl _ hx).2
    exact ⟨hne, (List.pairwise_cons.1 this.1).2, fun s hs => this.2 s (List.mem_cons_of_mem _ hs)⟩
  · exact ⟨hne, (hl _ hx).2⟩

theorem toProcess_total (k : Nat) (l : List Row) :
    (toProcess k l).length + ((nextSegs k l).map List.length).sum = (l.map List.length).sum := by
  induction l with
  | nil => rfl
  | cons a l ih =>
    cases a with
    | nil => simp only [toProcess, nextSegs, List.filterMap_cons, List.map_cons, List.sum_cons, List.length_nil] at *; omega
    | cons x t =>
      simp only [toProcess, nextSegs, List.filterMap_cons, List.map_cons, List.sum_cons] at *
      by_cases hk : x.shard = k
      · simp only [hk, if_true]
        by_cases ht : t = []
        · simp only [ht, if_true, List.length_cons, List.length_nil]; omega
        · simp only [ht, if_false, List.length_cons, List.map_cons, List.sum_cons]; omega
      · simp only [hk, if_false, List.map_cons, List.sum_cons, List.length_cons]; omega

def unionItem (h : Heap) (k : Nat) : List Seg → Item
  | [s] => .keep s
  | ss => .mk k (unionData h ss) false (unionData h ss).length

def unionItems : Nat → Heap → List Row → List Item
  | 0, _, _ => []
  | _ + 1, _, [] => []
  | f + 1, h, a :: l =>
    unionItem h (lowest (a :: l)) (toProcess (lowest (a :: l)) (a :: l)) ::
      unionItems f h (nextSegs (lowest (a :: l)) (a :: l))

theorem unionData_mem (h : Heap) (ss : List Seg) (x : Nat) : x ∈ unionData h ss ↔ ∃ s ∈ ss, x ∈ rd h s.data := by
  cases ss with
  | nil => simp [unionData]
  | cons s ss =>
    simp only [unionData]
    have : ∀ (ss : List Seg) (b : Bm), x ∈ ss.foldl (fun b o => b.or (rd h o.data)) b ↔ x ∈ b ∨ ∃ s ∈ ss, x ∈ rd h s.data := by
      intro ss
      induction ss with
      | nil => simp
      | cons t ss ih => intro b; rw [List.foldl_cons, ih, Bm.mem_or]; simp [or_assoc]
    rw [this]; simp

theorem unionData_ok {own h} (hh : HOk own h) (ss : List Seg) : (unionData h ss).Ok := by
  cases ss with
  | nil => exact Bm.nil_ok
  | cons s ss =>
    simp only [unionData]
    have : ∀ (ss : List Seg) (b : Bm), b.Ok → (ss.foldl (fun b o => b.or (rd h o.data)) b).Ok := by
      intro ss
      induction ss with
      | nil => exact fun b hb => hb
      | cons t ss ih => intro b hb; exact ih _ (Bm.or_ok hb)
    exact this ss _ (hh _).1

theorem unionData_congr {h h' : Heap} (ss : List Seg) (he : ∀ s ∈ ss, rd h' s.data = rd h s.data) :
    unionData h' ss = unionData h ss := by
  cases ss with
  | nil => rfl
  | cons s ss =>
    simp only [unionData, he s (by simp)]
    have : ∀ (ss : List Seg) (b : Bm), (∀ s ∈ ss, rd h' s.data = rd h s.data) →
        ss.foldl (fun b o => b.or (rd h' o.data)) b = ss.foldl (fun b o => b.or (rd h o.data)) b := by
      intro ss
      induction ss with
      | nil => intro b _; rfl
      | cons t ss ih =>
        intro b hb
        rw [List.foldl_cons, List.foldl_cons, hb t (by simp), ih _ (fun u hu => hb u (List.mem_cons_of_mem _ hu))]
    exact this ss _ (fun t ht => he t (List.mem_cons_of_mem _ ht))

theorem unionLoop_cons (f : Nat) (h : Heap) (a : Row) (l : List Row) :
    unionLoop (f + 1) h (a :: l) =
      ((unionLoop f (unionSeg h (lowest (a :: l)) (toProcess (lowest (a :: l)) (a :: l))).1
          (nextSegs (lowest (a :: l)) (a :: l))).1,
        (unionSeg h (lowest (a :: l)) (toProcess (lowest (a :: l)) (a :: l))).2 ::
        (unionLoop f (unionSeg h (lowest (a :: l)) (toProcess (lowest (a :: l)) (a :: l))).1
          (nextSegs (lowest (a :: l)) (a :: l))).2) := rfl

theorem unionLoop_eq {own} (f : Nat) (h0 : Heap) (l : List Row) (hl : LOk own h0 l) (t : Heap) :
    unionLoop f (h0 ++ t) l = build (h0 ++ t) (unionItems f h0 l) := by
  induction f generalizing l t with
  | zero => rfl
  | succ f ih =>
    cases l with
    | nil => rfl
    | cons a l =>
      have ih := ih _ (nextSegs_ok hl (lowest (a :: l)))
      have hd : ∀ s ∈ toProcess (lowest (a :: l)) (a :: l), rd (h0 ++ t) s.data = rd h0 s.data := by
        intro s hs
        obtain ⟨_, u, hu⟩ := mem_toProcess.1 hs
        exact rd_append ((hl _ hu).2.2 s (by simp)).1
      rw [unionLoop_cons, unionItems]
      generalize toProcess (lowest (a :: l)) (a :: l) = ss at *
      generalize nextSegs (lowest (a :: l)) (a :: l) = nx at *
      match ss, hd with
      | [s], _ => simp only [unionSeg, unionItem, build, ih]
      | [], hd =>
        simp only [unionSeg, unionItem, build, fresh, unionData_congr _ hd]
        rw [List.append_assoc, ih]
      | s :: s' :: ss, hd =>
        simp only [unionSeg, unionItem, build, fresh, unionData_congr _ hd]
        rw [List.append_assoc, ih]

theorem unionItem_shard {h k ss} (hk : ∀ s ∈ ss, s.shard = k) : (unionItem h k ss).shard = k := by
  match ss, hk with
  | [s], hk => exact hk s (by simp)
  | [], _ => rfl
  | _ :: _ :: _, _ => rfl

theorem unionItem_bits {h k ss} (x : Nat) : x ∈ (unionItem h k ss).bits h ↔ ∃ s ∈ ss, x ∈ rd h s.data := by
  match ss with
  | [s] => simp [unionItem, Item.bits]
  | [] => simp [unionItem, Item.bits, unionData]
  | s :: s' :: ss => simp only [unionItem, Item.bits, unionData_mem]

theorem head_le_all {own h r x t} (hr : ROk own h r) (e : r = x :: t) {s : Seg} (hs : s ∈ r) : x.shard ≤ s.shard := by
  subst e
  rcases List.mem_cons.1 hs with rfl | hs
  · exact Nat.le_refl _
  · exact Nat.le_of_lt ((List.pairwise_cons.1 hr.1).1 s hs)

theorem holders_lowest {own h l k} (hl : LOk own h l) (hlow : ∀ x t, (x :: t) ∈ l → k ≤ x.shard) :
    holders k l = (toProcess k l).length := by
  induction l with
  | nil => rfl
  | cons a l ih =>
    have ih := ih (fun r hr => hl r (List.mem_cons_of_mem _ hr)) (fun x t hx => hlow x t (List.mem_cons_of_mem _ hx))
    obtain ⟨hne, hok⟩ := hl a (by simp)
    cases a with
    | nil => exact absurd rfl hne
    | cons x t =>
      have hx := hlow x t (by simp)
      by_cases hk : x.shard = k
      · simp only [holders, toProcess, List.filter_cons, List.filterMap_cons] at *
        simp [hk, ih]
      · have hany : (x :: t).any (fun t => decide (t.shard = k)) = false := by
          rw [Bool.eq_false_iff]
          intro hc
          obtain ⟨u, hu, e⟩ := List.any_eq_true.1 hc
          have := head_le_all hok rfl hu
          simp at e; omega
        simp only [holders, toProcess, List.filter_cons, List.filterMap_cons, hany] at *
        simp [hk, ih]

theorem holders_next {k m : Nat} {l : List Row} (hne : m ≠ k) : holders m (nextSegs k l) = holders m l := by
  induction l with
  | nil => rfl
  | cons a l ih =>
    simp only [holders, nextSegs] at *
    cases a with
    | nil => simp [ih]
    | cons x t =>
      by_cases hk : x.shard = k
      · have hx : x.shard ≠ m := by omega
        by_cases ht : t = []
        · simp [hk, ht, ih, Ne.symm hne]
        · simp only [List.filterMap_cons, hk, if_true, ht, if_false, List.filter_cons, List.any_cons,
            Ne.symm hne, decide_false, Bool.false_or]
          split <;> simp [ih]
      · simp only [List.filterMap_cons, hk, if_false, List.filter_cons]
        split <;> simp [ih]

theorem unionItems_spec {own h} (hh : HOk own h) (f : Nat) (l : List Row) (hl : LOk own h l)
    (hf : (l.map List.length).sum ≤ f) :
    (unionItems f h l).Pairwise (fun a b => a.shard < b.shard) ∧
    (∀ i ∈ unionItems f h l, i.Ok own h) ∧
    (∀ i ∈ unionItems f h l, ∃ r ∈ l, ∃ s ∈ r, i.shard = s.shard) ∧
    (∀ x, x ∈ (unionItems f h l).flatMap (Item.bits h) ↔ ∃ r ∈ l, x ∈ columns h r) ∧
    (∀ s, Item.keep s ∈ unionItems f h l → (∃ r ∈ l, s ∈ r) ∧ holders s.shard l = 1) ∧
    (∀ k b wr n, Item.mk k b wr n ∈ unionItems f h l → wr = false ∧ n = b.length) := by
  induction f generalizing l with
  | zero =>
    have : l = [] := by
      cases l with
      | nil => rfl
      | cons a l =>
        have := (hl a (by simp)).1
        cases a with
        | nil => exact absurd rfl this
        | cons => simp at hf
    subst this
    simp [unionItems]
  | succ f ih =>
    cases l with
    | nil => simp [unionItems]
    | cons a l =>
      simp only [unionItems]
      obtain ⟨hlow, x0, t0, hx0, ex0⟩ := lowest_spec hl (by simp)
      generalize a :: l = L at *
      generalize hk : lowest L = k at *
      have hne : 0 < (toProcess k L).length := List.length_pos_of_mem (mem_toProcess.2 ⟨ex0, t0, hx0⟩)
      have htot := toProcess_total k L
      obtain ⟨i1, i2, i3, i4, i5, i6⟩ := ih (nextSegs k L) (nextSegs_ok hl k) (by omega)
      have htp : ∀ s ∈ toProcess k L, s.shard = k := fun s hs => (mem_toProcess.1 hs).1
      -- what remains is above the lowest shard
      have habove : ∀ r ∈ nextSegs k L, ∀ s ∈ r, k < s.shard ∧ ∃ r' ∈ L, s ∈ r' := by
        intro r hr s hs
        obtain ⟨_, ⟨x, ex, hx⟩ | ⟨x, t, e, ex, hx⟩⟩ := mem_nextSegs.1 hr
        · have := (List.pairwise_cons.1 (hl _ hx).2.1).1 s hs
          exact ⟨by omega, _, hx, List.mem_cons_of_mem _ hs⟩
        · have h1 := hlow x t hx
          have h2 := head_le_all (hl _ hx).2 rfl (e ▸ hs)
          exact ⟨by omega, _, hx, e ▸ hs⟩
      refine ⟨?_, ?_, ?_, ?_, ?_, ?_⟩
      · refine List.pairwise_cons.2 ⟨fun i hi => ?_, i1⟩
        rw [unionItem_shard htp]
        obtain ⟨r, hr, s, hs, e⟩ := i3 i hi
        rw [e]; exact (habove r hr s hs).1
      · intro i hi
        rcases List.mem_cons.1 hi with rfl | hi
        · have hseg : ∀ s ∈ toProcess k L, s.data < h.length ∧ own s.data = s.shard := by
            intro s hs
            obtain ⟨_, t, ht⟩ := mem_toProcess.1 hs
            exact (hl _ ht).2.2 s (by simp)
          have hbits : ∀ x ∈ unionData h (toProcess k L), x / shardWidth = k := by
            intro x hx
            obtain ⟨s, hs, hxs⟩ := (unionData_mem _ _ _).1 hx
            exact (((hh _).2 x hxs).trans (hseg s hs).2).trans (htp s hs)
          have hok := unionData_ok hh (toProcess k L)
          revert hseg hbits hok
          generalize toProcess k L = ss
          match ss with
          | [s] => intro hseg _ _; exact hseg s (by simp)
          | [] => intro _ hb ho; exact ⟨ho, hb⟩
          | _ :: _ :: _ => intro _ hb ho; exact ⟨ho, hb⟩
        · exact i2 i hi
      · intro i hi
        rcases List.mem_cons.1 hi with rfl | hi
        · exact ⟨_, hx0, x0, by simp, by rw [unionItem_shard htp, ex0]⟩
        · obtain ⟨r, hr, s, hs, e⟩ := i3 i hi
          obtain ⟨_, r', hr', hs'⟩ := habove r hr s hs
          exact ⟨r', hr', s, hs', e⟩
      · intro x
        rw [List.flatMap_cons, List.mem_append, unionItem_bits, i4]
        constructor
        · rintro (⟨s, hs, hx⟩ | ⟨r, hr, hx⟩)
          · obtain ⟨_, t, ht⟩ := mem_toProcess.1 hs
            exact ⟨_, ht, mem_columns.2 ⟨s, by simp, hx⟩⟩
          · obtain ⟨s, hs, hxs⟩ := mem_columns.1 hx
            obtain ⟨_, r', hr', hs'⟩ := habove r hr s hs
            exact ⟨r', hr', mem_columns.2 ⟨s, hs', hxs⟩⟩
        · rintro ⟨r, hr, hx⟩
          obtain ⟨s, hs, hxs⟩ := mem_columns.1 hx
          cases r with
          | nil => cases hs
          | cons y u =>
            by_cases hy : y.shard = k
            · rcases List.mem_cons.1 hs with rfl | hs
              · exact Or.inl ⟨s, mem_toProcess.2 ⟨hy, u, hr⟩, hxs⟩
              · have hu : u ≠ [] := by rintro rfl; cases hs
                exact Or.inr ⟨u, mem_nextSegs.2 ⟨hu, Or.inl ⟨y, hy, hr⟩⟩, mem_columns.2 ⟨s, hs, hxs⟩⟩
            · exact Or.inr ⟨y :: u, mem_nextSegs.2 ⟨by simp, Or.inr ⟨y, u, rfl, hy, hr⟩⟩, hx⟩
      · intro s hs
        rcases List.mem_cons.1 hs with e | hs
        · have hone : toProcess k L = [s] := by
            revert e
            generalize toProcess k L = ss
            match ss with
            | [s'] => intro e; cases e; rfl
            | [] => intro e; cases e
            | _ :: _ :: _ => intro e; cases e
          obtain ⟨hsk, t, ht⟩ := mem_toProcess.1 (show s ∈ toProcess k L by rw [hone]; simp)
          refine ⟨⟨_, ht, by simp⟩, ?_⟩
          rw [hsk, holders_lowest hl hlow, hone]; rfl
        · obtain ⟨⟨r, hr, hs'⟩, hh1⟩ := i5 s hs
          obtain ⟨hlt, hmem⟩ := habove r hr s hs'
          refine ⟨hmem, ?_⟩
          rw [holders_next (Nat.ne_of_gt hlt)] at hh1
          exact hh1
      · intro k' b wr n hm
        rcases List.mem_cons.1 hm with e | hm
        · revert e
          generalize toProcess k L = ss
          match ss with
          | [s'] => intro e; cases e
          | [] => intro e; cases e; exact ⟨rfl, rfl⟩
          | _ :: _ :: _ => intro e; cases e; exact ⟨rfl, rfl⟩
        · exact i6 k' b wr n hm

theorem union_build {own h r} {others : List Row} (hh : HOk own h) (hr : ROk own h r) (ho : ∀ o ∈ others, ROk own h o) :
    ∃ items, union h r others = build h items ∧
    items.Pairwise (fun a b => a.shard < b.shard) ∧
    (∀ i ∈ items, i.Ok own h) ∧
    (∀ x, x ∈ items.flatMap (Item.bits h) ↔ x ∈ columns h r ∨ ∃ o ∈ others, x ∈ columns h o) ∧
    (∀ s, Item.keep s ∈ items → (s ∈ r ∨ ∃ o ∈ others, s ∈ o) ∧ holders s.shard (r :: others) = 1) ∧
    (∀ k b wr n, Item.mk k b wr n ∈ items → wr = false ∧ n = b.length) := by
  have hl : LOk own h ((r :: others).filter (fun segs => decide (segs ≠ []))) := by
    intro a ha
    rw [List.mem_filter] at ha
    refine ⟨by simpa using ha.2, ?_⟩
    rcases List.mem_cons.1 ha.1 with rfl | ha
    · exact hr
    · exact ho a ha
  obtain ⟨h1, h2, _, h4, h5, h6⟩ := unionItems_spec hh _ _ hl (Nat.le_refl _)
  have hm : ∀ a, a ∈ (r :: others).filter (fun segs => decide (segs ≠ [])) ↔ (a = r ∨ a ∈ others) ∧ a ≠ [] := by
    intro a; simp [List.mem_filter]
  refine ⟨_, ?_, h1, h2, ?_, ?_, h6⟩
  · have := unionLoop_eq ((((r :: others).filter (fun segs => decide (segs ≠ []))).map List.length).sum) h _ hl []
    simpa [union] using this
  · intro x
    rw [h4]
    constructor
    · rintro ⟨a, ha, hx⟩
      rcases ((hm a).1 ha).1 with rfl | ha
      · exact Or.inl hx
      · exact Or.inr ⟨a, ha, hx⟩
    · have hne : ∀ a, x ∈ columns h a → a ≠ [] := by rintro a hx rfl; simp [columns] at hx
      rintro (hx | ⟨o, ho', hx⟩)
      · exact ⟨r, (hm r).2 ⟨Or.inl rfl, hne _ hx⟩, hx⟩
      · exact ⟨o, (hm o).2 ⟨Or.inr ho', hne _ hx⟩, hx⟩
  · intro s hs
    obtain ⟨⟨a, ha, hs'⟩, hc⟩ := h5 s hs
    refine ⟨?_, ?_⟩
    · rcases ((hm a).1 ha).1 with rfl | ha
      · exact Or.inl hs'
      · exact Or.inr ⟨a, ha, hs'⟩
    · rw [← hc]
      simp only [holders, List.filter_filter]
      congr 1
      refine List.filter_congr fun b _ => ?_
      cases b <;> simp

end Verif.Rw
