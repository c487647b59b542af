import Verif.Spec.Arena
/-! # Arenas: the invariant -/
namespace Verif.Ar

/-- What is behind an array number. -/
def W.arr (w : W) (n : Nat) : Bytes := (w.heap[n]?).getD []

/-- `cur`: what arenas hold since the last writer; `hs`: slices handed out by arenas, and what they hold; `B`: below it, the array of
the arena is theirs. -/
structure Good (w : W) (cur : Nat → Bytes) (B : Nat → Nat) (hs : List (Nat × Slice × Bytes)) : Prop where
  inj : ∀ (i j : Nat) a b, w.arenas[i]? = some a → w.arenas[j]? = some b → a.arr = b.arr → i = j
  lt : ∀ (i : Nat) a, w.arenas[i]? = some a → a.arr < w.heap.length ∧ a.len ≤ (w.arr a.arr).length ∧ a.off ≤ a.len ∧ B i ≤ a.len
  holds : ∀ (i : Nat) a, w.arenas[i]? = some a → ((w.arr a.arr).drop a.off).take (a.len - a.off) = cur i
  idle : ∀ (i : Nat) a, w.arenas[i]? = some a → a.used = false → a.len = 0 ∧ a.off = 0
  new : ∀ i, w.arenas.length ≤ i → cur i = []
  handed : ∀ h ∈ hs, h.2.1.arr < w.heap.length ∧ w.read h.2.1 = h.2.2 ∧ h.1 < w.arenas.length ∧
    (∀ a, w.arenas[h.1]? = some a → h.2.1.arr = a.arr → h.2.1.start + h.2.1.len ≤ B h.1) ∧
    ∀ (j : Nat) a, j ≠ h.1 → w.arenas[j]? = some a → a.arr ≠ h.2.1.arr

theorem read_eq (w : W) (s : Slice) : w.read s = ((w.arr s.arr).drop s.start).take s.len := rfl

/-- The function with one value changed. -/
def upd {α : Type} (f : Nat → α) (i : Nat) (x : α) : Nat → α := fun j => if j = i then x else f j

theorem upd_same {α : Type} (f : Nat → α) (i : Nat) (x : α) : upd f i x i = x := if_pos rfl

theorem upd_other {α : Type} (f : Nat → α) {i j : Nat} (x : α) (h : j ≠ i) : upd f i x j = f j := if_neg h

theorem set_get {l : List Arena} {i j : Nat} {a b : Arena} (h : (l.set i a)[j]? = some b) : (j = i ∧ b = a ∧ i < l.length) ∨ (j ≠ i ∧ l[j]? = some b) := by
  rw [List.getElem?_set] at h
  by_cases hij : i = j
  · subst hij
    rw [if_pos rfl] at h
    split at h
    · cases h; exact .inl ⟨rfl, rfl, by assumption⟩
    · cases h
  · rw [if_neg hij] at h; exact .inr ⟨Ne.symm hij, h⟩

/-- Only the arena changes, not the memory. -/
theorem Good.put {w : W} {cur : Nat → Bytes} {B : Nat → Nat} {hs : List (Nat × Slice × Bytes)} (g : Good w cur B hs) {i : Nat} {a a' : Arena}
    (ha : w.arenas[i]? = some a) (harr : a'.arr = a.arr) (hlen : a'.len ≤ a.len) (hoff : a'.off ≤ a'.len) (hB : B i ≤ a'.len)
    (hi : a'.used = false → a'.len = 0 ∧ a'.off = 0) : Good (w.put i a') (upd cur i (((w.arr a.arr).drop a'.off).take (a'.len - a'.off))) B hs := by
  refine ⟨?_, ?_, ?_, ?_, ?_, ?_⟩
  · intro j k b c hj hk e
    rcases set_get hj with ⟨hj1, hj2, -⟩ | ⟨hj', hj2⟩ <;> rcases set_get hk with ⟨hk1, hk2, -⟩ | ⟨hk', hk2⟩
    · rw [hj1, hk1]
    · subst hj1 hj2; exact g.inj _ _ _ _ ha hk2 (by rw [← harr]; exact e)
    · subst hk1 hk2; exact g.inj _ _ _ _ hj2 ha (by rw [← harr]; exact e)
    · exact g.inj _ _ _ _ hj2 hk2 e
  · intro j b hj
    rcases set_get hj with ⟨rfl, rfl, -⟩ | ⟨hj', hj⟩
    · have := g.lt _ _ ha
      refine ⟨by rw [harr]; exact this.1, ?_, hoff, hB⟩
      rw [harr]; exact Nat.le_trans hlen this.2.1
    · exact g.lt j b hj
  · intro j b hj
    rcases set_get hj with ⟨rfl, rfl, -⟩ | ⟨hj', hj⟩
    · rw [upd_same, harr]; rfl
    · rw [upd_other _ _ hj']; exact g.holds j b hj
  · intro j b hj
    rcases set_get hj with ⟨rfl, rfl, -⟩ | ⟨hj', hj⟩
    · exact hi
    · exact g.idle j b hj
  · intro j hj
    have hl : w.arenas.length ≤ j := by simpa [W.put] using hj
    have : j ≠ i := by
      rintro rfl
      exact absurd (List.getElem?_eq_some_iff.1 ha).1 (by omega)
    rw [upd_other _ _ this]; exact g.new j hl
  · intro h hh
    obtain ⟨h1, h2, h3, h4, h5⟩ := g.handed h hh
    refine ⟨h1, h2, by simpa [W.put] using h3, fun b hb e => ?_, fun j b hj hb => ?_⟩
    · rcases set_get hb with ⟨e1, rfl, -⟩ | ⟨hj', hb⟩
      · have : w.arenas[h.1]? = some a := by rw [e1]; exact ha
        exact h4 a this (by rw [← harr]; exact e)
      · exact h4 b hb e
    · rcases set_get hb with ⟨rfl, rfl, -⟩ | ⟨hj', hb⟩
      · rw [harr]; exact h5 j a hj ha
      · exact h5 j b hj hb

theorem Good.raise {w : W} {cur : Nat → Bytes} {B B' : Nat → Nat} {hs : List (Nat × Slice × Bytes)} (g : Good w cur B hs)
    (h : ∀ (i : Nat) a, w.arenas[i]? = some a → B i ≤ B' i ∧ B' i ≤ a.len) : Good w cur B' hs := by
  refine ⟨g.inj, fun i a ha => ?_, g.holds, g.idle, g.new, fun x hx => ?_⟩
  · obtain ⟨h1, h2, h3, h4⟩ := g.lt i a ha
    exact ⟨h1, h2, h3, (h i a ha).2⟩
  · obtain ⟨h1, h2, h3, h4, h5⟩ := g.handed x hx
    exact ⟨h1, h2, h3, fun a ha e => Nat.le_trans (h4 a ha e) (h _ a ha).1, h5⟩

theorem Good.hand {w : W} {cur : Nat → Bytes} {B : Nat → Nat} {hs : List (Nat × Slice × Bytes)} (g : Good w cur B hs) {i : Nat} {a : Arena}
    (ha : w.arenas[i]? = some a) (hB : B i = a.len) :
    Good w cur B ((i, { arr := a.arr, start := a.off, len := a.len - a.off }, cur i) :: hs) := by
  refine ⟨g.inj, g.lt, g.holds, g.idle, g.new, fun x hx => ?_⟩
  rcases List.mem_cons.1 hx with rfl | hx
  · obtain ⟨h1, h2, h3, h4⟩ := g.lt i a ha
    refine ⟨h1, g.holds i a ha, (List.getElem?_eq_some_iff.1 ha).1, fun b hb _ => ?_, fun j b hj hb e => hj (g.inj j i b a hb ha e)⟩
    rw [hB]; show a.off + (a.len - a.off) ≤ a.len; omega
  · exact g.handed x hx

theorem Good.drop {w : W} {cur : Nat → Bytes} {B : Nat → Nat} {hs hs' : List (Nat × Slice × Bytes)} (g : Good w cur B hs) (h : ∀ x ∈ hs', x ∈ hs) :
    Good w cur B hs' := ⟨g.inj, g.lt, g.holds, g.idle, g.new, fun x hx => g.handed x (h x hx)⟩

/-- The array of arena `i` is overwritten above what is handed out, or copied to a new one. -/
theorem append_good {w : W} {cur : Nat → Bytes} {B : Nat → Nat} {hs : List (Nat × Slice × Bytes)} (g : Good w cur B hs) {i : Nat} {a : Arena}
    (ha : w.arenas[i]? = some a) (hu : a.used = true) (p : Bytes) (spare : Nat) :
    ∃ w' a', append w i a p spare = (w', a') ∧ Good w' (upd cur i (cur i ++ p)) B hs ∧ w'.arenas[i]? = some a' ∧ a'.len = a.len + p.length ∧
      a'.off = a.off ∧ a'.used = true := by
  obtain ⟨hlt, hcap, hoff, hBi⟩ := g.lt i a ha
  have hil := (List.getElem?_eq_some_iff.1 ha).1
  have hcur := g.holds i a ha
  unfold append
  simp only
  change ∃ w' a', (if a.len + p.length ≤ (w.arr a.arr).length then _ else _) = (w', a') ∧ _
  by_cases hc : a.len + p.length ≤ (w.arr a.arr).length
  · rw [if_pos hc]
    refine ⟨_, _, rfl, ?_, by simp [hil], rfl, rfl, hu⟩
    generalize hx : w.arr a.arr = x at *
    change Good (W.mk (w.heap.set a.arr ((w.arr a.arr).take a.len ++ p ++ (w.arr a.arr).drop (a.len + p.length))) _) _ _ _
    rw [hx]
    have harr : ∀ n, (W.mk (w.heap.set a.arr (x.take a.len ++ p ++ x.drop (a.len + p.length)))
        (w.arenas.set i { a with len := a.len + p.length })).arr n =
        if n = a.arr then x.take a.len ++ p ++ x.drop (a.len + p.length) else w.arr n := by
      intro n
      unfold W.arr
      simp only [List.getElem?_set]
      by_cases hn : n = a.arr
      · subst hn; rw [if_pos rfl, if_pos rfl, if_pos hlt]; rfl
      · rw [if_neg (Ne.symm hn), if_neg hn]
    refine ⟨?_, ?_, ?_, ?_, ?_, ?_⟩
    · intro j k b c hj hk e
      rcases set_get hj with ⟨hj1, hj2, -⟩ | ⟨hj', hj2⟩ <;> rcases set_get hk with ⟨hk1, hk2, -⟩ | ⟨hk', hk2⟩
      · rw [hj1, hk1]
      · subst hj1 hj2; exact g.inj _ _ _ _ ha hk2 e
      · subst hk1 hk2; exact g.inj _ _ _ _ hj2 ha e
      · exact g.inj _ _ _ _ hj2 hk2 e
    · intro j b hj
      rcases set_get hj with ⟨rfl, rfl, -⟩ | ⟨hj', hj⟩
      · refine ⟨by simpa using hlt, ?_, by simp only; omega, by simp only; omega⟩
        rw [harr, if_pos rfl]; simp; omega
      · obtain ⟨h1, h2, h3, h4⟩ := g.lt j b hj
        refine ⟨by simpa using h1, ?_, h3, h4⟩
        rw [harr, if_neg (fun e => hj' (g.inj j i b a hj ha e))]; exact h2
    · intro j b hj
      rcases set_get hj with ⟨rfl, rfl, -⟩ | ⟨hj', hj⟩
      · rw [upd_same, ← hcur, harr, if_pos rfl]
        simp only
        rw [List.append_assoc, List.drop_append_of_le_length (by simp; omega)]
        have e1 : (List.drop a.off (List.take a.len x)) = (x.drop a.off).take (a.len - a.off) := by rw [List.drop_take]
        rw [e1, ← List.append_assoc, List.take_append_of_le_length (by simp; omega), List.take_of_length_le (by simp; omega)]
      · rw [upd_other _ _ hj', harr, if_neg (fun e => hj' (g.inj j i b a hj ha e))]
        exact g.holds j b hj
    · intro j b hj hb
      rcases set_get hj with ⟨rfl, rfl, -⟩ | ⟨hj', hj⟩
      · simp only at hb; rw [hu] at hb; cases hb
      · exact g.idle j b hj hb
    · intro j hj
      have hj : w.arenas.length ≤ j := by simpa using hj
      rw [upd_other _ _ (by omega)]; exact g.new j hj
    · intro h hh
      obtain ⟨h1, h2, h3, h4, h5⟩ := g.handed h hh
      refine ⟨by simpa using h1, ?_, by simpa using h3, fun b hb e => ?_, fun j b hj hb => ?_⟩
      · rw [read_eq] at h2 ⊢
        rw [harr]
        by_cases hn : h.2.1.arr = a.arr
        · rw [if_pos hn]
          rw [hn, hx] at h2
          have hown : h.1 = i := by
            by_cases e : i = h.1
            · exact e.symm
            · exact absurd hn.symm (h5 i a e ha)
          have hb := h4 a (by rw [hown]; exact ha) hn
          rw [hown] at hb
          rw [← h2, List.append_assoc, List.drop_append_of_le_length (by simp; omega), List.take_append_of_le_length (by simp; omega), List.drop_take,
            List.take_take, Nat.min_eq_left (by omega)]
        · rw [if_neg hn]; exact h2
      · rcases set_get hb with ⟨e1, rfl, -⟩ | ⟨hj', hb⟩
        · exact h4 a (by rw [e1]; exact ha) e
        · exact h4 b hb e
      · rcases set_get hb with ⟨rfl, rfl, -⟩ | ⟨hj', hb⟩
        · exact h5 j a hj ha
        · exact h5 j b hj hb
  · rw [if_neg hc]
    refine ⟨_, _, rfl, ?_, by simp [hil], rfl, rfl, hu⟩
    generalize hx : w.arr a.arr = x at *
    change Good (W.mk (w.heap ++ [(w.arr a.arr).take a.len ++ p ++ List.replicate spare 0]) _) _ _ _
    rw [hx]
    have harr : ∀ n, (W.mk (w.heap ++ [x.take a.len ++ p ++ List.replicate spare 0])
        (w.arenas.set i { a with arr := w.heap.length, len := a.len + p.length })).arr n =
        if n = w.heap.length then x.take a.len ++ p ++ List.replicate spare 0 else w.arr n := by
      intro n
      unfold W.arr
      simp only
      by_cases hn : n = w.heap.length
      · subst hn; rw [if_pos rfl]; simp
      · rw [if_neg hn]
        by_cases hl : n < w.heap.length
        · rw [List.getElem?_append_left hl]
        · rw [List.getElem?_eq_none (by simp; omega), List.getElem?_eq_none (by omega)]
    refine ⟨?_, ?_, ?_, ?_, ?_, ?_⟩
    · intro j k b c hj hk e
      rcases set_get hj with ⟨hj1, hj2, -⟩ | ⟨hj', hj2⟩ <;> rcases set_get hk with ⟨hk1, hk2, -⟩ | ⟨hk', hk2⟩
      · rw [hj1, hk1]
      · have := (g.lt _ _ hk2).1; subst hj2; simp only at e; omega
      · have := (g.lt _ _ hj2).1; subst hk2; simp only at e; omega
      · exact g.inj _ _ _ _ hj2 hk2 e
    · intro j b hj
      rcases set_get hj with ⟨rfl, rfl, -⟩ | ⟨hj', hj⟩
      · refine ⟨by simp, ?_, by simp only; omega, by simp only; omega⟩
        rw [harr, if_pos rfl]; simp; omega
      · obtain ⟨h1, h2, h3, h4⟩ := g.lt j b hj
        refine ⟨by simp; omega, ?_, h3, h4⟩
        rw [harr, if_neg (by omega)]; exact h2
    · intro j b hj
      rcases set_get hj with ⟨rfl, rfl, -⟩ | ⟨hj', hj⟩
      · rw [upd_same, ← hcur, harr, if_pos rfl]
        simp only
        rw [List.append_assoc, List.drop_append_of_le_length (by simp; omega)]
        have e1 : (List.drop a.off (List.take a.len x)) = (x.drop a.off).take (a.len - a.off) := by rw [List.drop_take]
        rw [e1, ← List.append_assoc, List.take_append_of_le_length (by simp; omega), List.take_of_length_le (by simp; omega)]
      · have := (g.lt j b hj).1
        rw [upd_other _ _ hj', harr, if_neg (by omega)]
        exact g.holds j b hj
    · intro j b hj hb
      rcases set_get hj with ⟨rfl, rfl, -⟩ | ⟨hj', hj⟩
      · simp only at hb; rw [hu] at hb; cases hb
      · exact g.idle j b hj hb
    · intro j hj
      have hj : w.arenas.length ≤ j := by simpa using hj
      rw [upd_other _ _ (by omega)]; exact g.new j hj
    · intro h hh
      obtain ⟨h1, h2, h3, h4, h5⟩ := g.handed h hh
      refine ⟨by simp; omega, ?_, by simpa using h3, fun b hb e => ?_, fun j b hj hb => ?_⟩
      · rw [read_eq] at h2 ⊢
        rw [harr, if_neg (by omega)]; exact h2
      · rcases set_get hb with ⟨e1, rfl, -⟩ | ⟨hj', hb⟩
        · simp only at e; omega
        · exact h4 b hb e
      · rcases set_get hb with ⟨rfl, rfl, -⟩ | ⟨hj', hb⟩
        · simp only; omega
        · exact h5 j b hj hb

/-- The handed out slices after an operation that returned `r`. -/
def handedOut (zip : Bytes → Bytes) (cur : Nat → Bytes) (hs : List (Nat × Slice × Bytes)) (o : Op) (r : Option Slice) : List (Nat × Slice × Bytes) :=
  match o, r with
  | .release i, _ => hs.filter (fun h => h.1 != i)
  | o, some s => match o.arena with
    | some i => (i, s, o.content zip (cur i)) :: hs
    | none => hs
  | _, none => hs

theorem append_put (w : W) (i : Nat) (a : Arena) (p : Bytes) (spare : Nat) : append (w.put i a) i a p spare = append w i a p spare := by
  simp [append, W.put, List.set_set]

theorem Good.congr {w : W} {cur cur' : Nat → Bytes} {B : Nat → Nat} {hs : List (Nat × Slice × Bytes)} (g : Good w cur B hs) (h : ∀ i, cur' i = cur i) :
    Good w cur' B hs := by
  have : cur' = cur := funext h
  rw [this]; exact g

/-- Begin a new piece, append to it. -/
theorem piece {w : W} {cur : Nat → Bytes} {B : Nat → Nat} {hs : List (Nat × Slice × Bytes)} (g : Good w cur B hs) {i : Nat} {a : Arena}
    (ha : w.arenas[i]? = some a) (hu : a.used = true) (p : Bytes) (spare : Nat) :
    ∃ w' a', append w i { a with off := a.len } p spare = (w', a') ∧ Good w' (upd cur i p) B hs ∧ w'.arenas[i]? = some a' ∧
      a'.off = a.len ∧ a'.len = a.len + p.length ∧ a'.used = true := by
  obtain ⟨hlt, hcap, hoff, hBi⟩ := g.lt i a ha
  have hil := (List.getElem?_eq_some_iff.1 ha).1
  have g1 := g.put (a' := { a with off := a.len }) ha rfl (Nat.le_refl _) (Nat.le_refl _) hBi (by simp only; rw [hu]; intro h; cases h)
  have ha1 : (w.put i { a with off := a.len }).arenas[i]? = some { a with off := a.len } := by simp [W.put, hil]
  obtain ⟨w', a', e, g2, ha2, hl, ho, hu2⟩ := append_good g1 ha1 hu p spare
  rw [append_put] at e
  refine ⟨w', a', e, g2.congr fun j => ?_, ha2, ho, hl, hu2⟩
  by_cases hj : j = i
  · subst hj; simp [upd_same]
  · rw [upd_other _ _ hj, upd_other _ _ hj, upd_other _ _ hj]

/-- The piece is given up. -/
theorem giveup {w : W} {cur : Nat → Bytes} {B : Nat → Nat} {hs : List (Nat × Slice × Bytes)} (g : Good w cur B hs) {i : Nat} {a : Arena}
    (ha : w.arenas[i]? = some a) (hu : a.used = true) (hB : B i ≤ a.off) : Good (w.put i { a with len := a.off }) (upd cur i []) B hs := by
  obtain ⟨hlt, hcap, hoff, hBi⟩ := g.lt i a ha
  have := g.put (a' := { a with len := a.off }) ha rfl hoff (Nat.le_refl _) hB (by simp only; rw [hu]; intro h; cases h)
  refine this.congr fun j => ?_
  by_cases hj : j = i
  · subst hj; simp [upd_same]
  · rw [upd_other _ _ hj, upd_other _ _ hj]

/-- The piece is handed out. -/
theorem handout {w : W} {cur : Nat → Bytes} {B : Nat → Nat} {hs : List (Nat × Slice × Bytes)} (g : Good w cur B hs) {i : Nat} {a : Arena}
    (ha : w.arenas[i]? = some a) : Good w cur (upd B i a.len) ((i, { arr := a.arr, start := a.off, len := a.len - a.off }, cur i) :: hs) := by
  have : Good w cur (upd B i a.len) hs := g.raise fun j b hb => by
    by_cases hj : j = i
    · subst hj; rw [upd_same]; rw [ha] at hb; cases hb; exact ⟨(g.lt j a ha).2.2.2, Nat.le_refl _⟩
    · rw [upd_other _ _ hj]; exact ⟨Nat.le_refl _, (g.lt j b hb).2.2.2⟩
  exact this.hand ha (upd_same ..)

theorem mk_fresh {w : W} {cur : Nat → Bytes} {B : Nat → Nat} {hs : List (Nat × Slice × Bytes)} (g : Good w cur B hs) :
    Good (W.mk (w.heap ++ [[]]) (w.arenas ++ [{ arr := w.heap.length }])) cur (upd B w.arenas.length 0) hs := by
  have harr : ∀ n, (W.mk (w.heap ++ [[]]) (w.arenas ++ [{ arr := w.heap.length }])).arr n = w.arr n := by
    intro n
    unfold W.arr
    simp only
    by_cases hl : n < w.heap.length
    · rw [List.getElem?_append_left hl]
    · rw [List.getElem?_append_right (by omega), List.getElem?_eq_none (l := w.heap) (by omega)]
      cases h : n - w.heap.length <;> simp
  have hget : ∀ (j : Nat) b, (w.arenas ++ [({ arr := w.heap.length } : Arena)])[j]? = some b →
      (j < w.arenas.length ∧ w.arenas[j]? = some b) ∨ (j = w.arenas.length ∧ b = { arr := w.heap.length }) := by
    intro j b hj
    by_cases hl : j < w.arenas.length
    · rw [List.getElem?_append_left hl] at hj; exact .inl ⟨hl, hj⟩
    · have := (List.getElem?_eq_some_iff.1 hj).1
      simp at this
      have hj' : j = w.arenas.length := by omega
      subst hj'
      simp at hj
      exact .inr ⟨rfl, hj.symm⟩
  refine ⟨?_, ?_, ?_, ?_, ?_, ?_⟩
  · intro j k b c hj hk e
    rcases hget j b hj with ⟨h1, h2⟩ | ⟨h1, h2⟩ <;> rcases hget k c hk with ⟨h3, h4⟩ | ⟨h3, h4⟩
    · exact g.inj _ _ _ _ h2 h4 e
    · have := (g.lt j b h2).1; subst h4; simp only at e; omega
    · have := (g.lt k c h4).1; subst h2; simp only at e; omega
    · rw [h1, h3]
  · intro j b hj
    rcases hget j b hj with ⟨h1, h2⟩ | ⟨h1, h2⟩
    · obtain ⟨k1, k2, k3, k4⟩ := g.lt j b h2
      refine ⟨by simp; omega, by rw [harr]; exact k2, k3, ?_⟩
      rw [upd_other _ _ (by omega)]; exact k4
    · subst h1 h2
      exact ⟨by simp, Nat.zero_le _, Nat.le_refl _, by rw [upd_same]; exact Nat.le_refl _⟩
  · intro j b hj
    rw [harr]
    rcases hget j b hj with ⟨h1, h2⟩ | ⟨h1, h2⟩
    · exact g.holds j b h2
    · subst h1 h2; rw [g.new _ (Nat.le_refl _)]; simp
  · intro j b hj hu
    rcases hget j b hj with ⟨h1, h2⟩ | ⟨h1, h2⟩
    · exact g.idle j b h2 hu
    · subst h2; cases hu
  · intro j hj
    exact g.new j (by simp at hj; omega)
  · intro h hh
    obtain ⟨h1, h2, h3, h4, h5⟩ := g.handed h hh
    refine ⟨by simp; omega, ?_, by simp; omega, fun b hb e => ?_, fun j b hj hb => ?_⟩
    · rw [read_eq] at h2 ⊢; rw [harr]; exact h2
    · rcases hget _ b hb with ⟨k1, k2⟩ | ⟨k1, k2⟩
      · rw [upd_other _ _ (by omega)]; exact h4 b k2 e
      · omega
    · rcases hget _ b hb with ⟨k1, k2⟩ | ⟨k1, k2⟩
      · exact h5 j b hj k2
      · subst k2; simp only; omega

theorem mk_release {w : W} {cur : Nat → Bytes} {B : Nat → Nat} {hs : List (Nat × Slice × Bytes)} (g : Good w cur B hs) {i : Nat} {a : Arena}
    (ha : w.arenas[i]? = some a) :
    Good (W.mk (w.heap.set a.arr (List.replicate a.len 0 ++ ((w.heap[a.arr]?).getD []).drop a.len))
      (w.arenas.set i { a with len := 0, off := 0, used := false })) (upd cur i []) (upd B i 0) (hs.filter (fun h => h.1 != i)) := by
  obtain ⟨hlt, hcap, hoff, hBi⟩ := g.lt i a ha
  have harr : ∀ n, n ≠ a.arr → (W.mk (w.heap.set a.arr (List.replicate a.len 0 ++ ((w.heap[a.arr]?).getD []).drop a.len))
      (w.arenas.set i { a with len := 0, off := 0, used := false })).arr n = w.arr n := by
    intro n hn
    unfold W.arr
    simp only [List.getElem?_set]
    rw [if_neg (Ne.symm hn)]
  refine ⟨?_, ?_, ?_, ?_, ?_, ?_⟩
  · intro j k b c hj hk e
    rcases set_get hj with ⟨hj1, hj2, -⟩ | ⟨hj', hj2⟩ <;> rcases set_get hk with ⟨hk1, hk2, -⟩ | ⟨hk', hk2⟩
    · rw [hj1, hk1]
    · subst hj1 hj2; exact g.inj _ _ _ _ ha hk2 e
    · subst hk1 hk2; exact g.inj _ _ _ _ hj2 ha e
    · exact g.inj _ _ _ _ hj2 hk2 e
  · intro j b hj
    rcases set_get hj with ⟨hj1, hj2, -⟩ | ⟨hj', hj2⟩
    · subst hj1 hj2
      exact ⟨by simpa using hlt, Nat.zero_le _, Nat.le_refl _, by rw [upd_same]; exact Nat.le_refl _⟩
    · obtain ⟨h1, h2, h3, h4⟩ := g.lt j b hj2
      refine ⟨by simpa using h1, ?_, h3, by rw [upd_other _ _ hj']; exact h4⟩
      rw [harr _ (fun e => hj' (g.inj j i b a hj2 ha e))]; exact h2
  · intro j b hj
    rcases set_get hj with ⟨hj1, hj2, -⟩ | ⟨hj', hj2⟩
    · subst hj1 hj2; rw [upd_same]; simp
    · rw [upd_other _ _ hj', harr _ (fun e => hj' (g.inj j i b a hj2 ha e))]; exact g.holds j b hj2
  · intro j b hj hb
    rcases set_get hj with ⟨hj1, hj2, -⟩ | ⟨hj', hj2⟩
    · subst hj2; exact ⟨rfl, rfl⟩
    · exact g.idle j b hj2 hb
  · intro j hj
    have hj : w.arenas.length ≤ j := by simpa using hj
    have hil := (List.getElem?_eq_some_iff.1 ha).1
    rw [upd_other _ _ (by omega)]; exact g.new j hj
  · intro h hh
    obtain ⟨hh, hne⟩ := List.mem_filter.1 hh
    have hne : h.1 ≠ i := by simpa using hne
    obtain ⟨h1, h2, h3, h4, h5⟩ := g.handed h hh
    refine ⟨by simpa using h1, ?_, by simpa using h3, fun b hb e => ?_, fun j b hj hb => ?_⟩
    · rw [read_eq] at h2 ⊢
      rw [harr _ (fun e => h5 i a (Ne.symm hne) ha e.symm)]; exact h2
    · rcases set_get hb with ⟨e1, -, -⟩ | ⟨hj', hb⟩
      · exact absurd e1 hne
      · rw [upd_other _ _ hne]; exact h4 b hb e
    · rcases set_get hb with ⟨hj1, hj2, -⟩ | ⟨hj', hb⟩
      · subst hj1 hj2; exact h5 j a hj ha
      · exact h5 j b hj hb

theorem bind_used {w : W} {i : Nat} {f : Arena → Option (W × Option Slice)} {x : W × Option Slice} (h : (w.arenas[i]?).bind f = some x) :
    ∃ a, w.arenas[i]? = some a ∧ f a = some x := by
  cases ha : w.arenas[i]? with
  | none => rw [ha] at h; cases h
  | some a => rw [ha] at h; exact ⟨a, rfl, h⟩

/-- Every operation keeps the invariant. -/
theorem step_good {zip : Bytes → Bytes} {w w' : W} {cur : Nat → Bytes} {B : Nat → Nat} {hs : List (Nat × Slice × Bytes)} (g : Good w cur B hs)
    {o : Op} {r : Option Slice} (h : step zip w o = some (w', r)) :
    ∃ B', Good w' (fun i => written zip i (cur i) o) B' (handedOut zip cur hs o r) := by
  cases o with
  | fresh => cases h; exact ⟨_, mk_fresh g⟩
  | new i =>
    obtain ⟨a, ha, h⟩ := bind_used h
    cases hu : a.used with
    | true => simp [hu] at h
    | false =>
      simp [hu] at h
      obtain ⟨rfl, rfl⟩ := h
      obtain ⟨h1, h2⟩ := g.idle i a ha hu
      refine ⟨B, (g.put (a' := { a with used := true }) ha rfl (Nat.le_refl _) (g.lt i a ha).2.2.1 (g.lt i a ha).2.2.2 (by simp)).congr fun j => ?_⟩
      simp only [written]
      by_cases hj : i = j
      · subst hj; simp [upd_same, h1, h2]
      · rw [if_neg hj, upd_other _ _ (Ne.symm hj)]
  | newWriter i =>
    obtain ⟨a, ha, h⟩ := bind_used h
    cases hu : a.used with
    | false => simp [hu] at h
    | true =>
      simp [hu] at h
      obtain ⟨rfl, rfl⟩ := h
      refine ⟨B, (g.put (a' := Arena.mk a.arr a.len a.len true) ha rfl (Nat.le_refl _) (Nat.le_refl _) (g.lt i a ha).2.2.2 (by simp)).congr fun j => ?_⟩
      simp only [written]
      by_cases hj : i = j
      · subst hj; simp [upd_same]
      · rw [if_neg hj, upd_other _ _ (Ne.symm hj)]
  | write i p spare =>
    obtain ⟨a, ha, h⟩ := bind_used h
    cases hu : a.used with
    | false => simp [hu] at h
    | true =>
      simp [hu] at h
      obtain ⟨rfl, rfl⟩ := h
      obtain ⟨w2, a2, e, g2, -⟩ := append_good g ha hu p spare
      rw [e]
      refine ⟨B, g2.congr fun j => ?_⟩
      simp only [written]
      by_cases hj : i = j
      · subst hj; simp [upd_same]
      · rw [if_neg hj, upd_other _ _ (Ne.symm hj)]
  | bytes i =>
    obtain ⟨a, ha, h⟩ := bind_used h
    cases hu : a.used with
    | false => simp [hu] at h
    | true =>
      simp [hu] at h
      obtain ⟨rfl, rfl⟩ := h
      exact ⟨_, handout g ha⟩
  | marshal i p ok spare =>
    obtain ⟨a, ha, h⟩ := bind_used h
    cases hu : a.used with
    | false => simp [hu] at h
    | true =>
      simp [hu] at h
      obtain ⟨w2, a2, e, g2, ha2, ho, hl, hu2⟩ := piece g ha hu p spare
      cases ok with
      | true =>
        simp only [marshal, e, if_true] at h
        obtain ⟨rfl, rfl⟩ := h
        have := handout g2 ha2
        rw [upd_same] at this
        refine ⟨_, this.congr fun j => ?_⟩
        simp only [written]
        by_cases hj : i = j
        · subst hj; simp [upd_same]
        · rw [if_neg hj, upd_other _ _ (Ne.symm hj)]
      | false =>
        simp only [marshal, e] at h
        simp at h
        obtain ⟨rfl, rfl⟩ := h
        refine ⟨_, (giveup g2 ha2 hu2 (by rw [ho]; exact (g.lt i a ha).2.2.2)).congr fun j => ?_⟩
        simp only [written]
        by_cases hj : i = j
        · subst hj; simp [upd_same]
        · rw [if_neg hj, upd_other _ _ (Ne.symm hj), upd_other _ _ (Ne.symm hj)]
  | compress i p okM okC part spare spare' =>
    obtain ⟨a, ha, h⟩ := bind_used h
    cases hu : a.used with
    | false => simp [hu] at h
    | true =>
      simp only [hu, if_true] at h
      obtain ⟨w2, a2, e, g2, ha2, ho, hl, hu2⟩ := piece g ha hu p spare
      cases okM with
      | false =>
        simp only [marshal, e] at h
        simp at h
        obtain ⟨rfl, rfl⟩ := h
        refine ⟨_, (giveup g2 ha2 hu2 (by rw [ho]; exact (g.lt i a ha).2.2.2)).congr fun j => ?_⟩
        simp only [written]
        by_cases hj : i = j
        · subst hj; simp [upd_same]
        · rw [if_neg hj, upd_other _ _ (Ne.symm hj), upd_other _ _ (Ne.symm hj)]
      | true =>
        simp only [marshal, e, if_true] at h
        have hread : w2.read { arr := a2.arr, start := a2.off, len := a2.len - a2.off } = p := by
          have := g2.holds i a2 ha2
          rw [upd_same] at this; exact this
        rw [hread] at h
        generalize hq : (if okC then zip p else part) = q at h
        obtain ⟨w3, a3, e3, g3, ha3, ho3, hl3, hu3⟩ := piece g2 ha2 hu2 q spare'
        cases okC with
        | true =>
          simp at hq
          subst hq
          simp only [squeeze, e3, if_true] at h
          cases h
          have := handout g3 ha3
          rw [upd_same] at this
          refine ⟨_, this.congr fun j => ?_⟩
          simp only [written]
          by_cases hj : i = j
          · subst hj; simp [upd_same]
          · rw [if_neg hj, upd_other _ _ (Ne.symm hj), upd_other _ _ (Ne.symm hj)]
        | false =>
          simp only [squeeze, e3] at h
          simp at h
          obtain ⟨rfl, rfl⟩ := h
          refine ⟨_, (giveup g3 ha3 hu3 (by rw [ho3]; exact (g2.lt i a2 ha2).2.2.2)).congr fun j => ?_⟩
          simp only [written]
          by_cases hj : i = j
          · subst hj; simp [upd_same]
          · rw [if_neg hj, upd_other _ _ (Ne.symm hj), upd_other _ _ (Ne.symm hj), upd_other _ _ (Ne.symm hj)]
  | release i =>
    obtain ⟨a, ha, h⟩ := bind_used h
    cases hu : a.used with
    | false => simp [hu] at h
    | true =>
      simp [hu] at h
      obtain ⟨rfl, rfl⟩ := h
      refine ⟨_, (mk_release g ha).congr fun j => ?_⟩
      simp only [written]
      by_cases hj : i = j
      · subst hj; simp [upd_same]
      · rw [if_neg hj, upd_other _ _ (Ne.symm hj)]

theorem good_start : Good {} (fun _ => []) (fun _ => 0) [] :=
  ⟨fun _ _ _ _ h => by simp at h, fun _ _ h => by simp at h, fun _ _ h => by simp at h, fun _ _ h => by simp at h, fun _ _ => rfl, fun _ h => by simp at h⟩

theorem run_good {zip : Bytes → Bytes} (os : List Op) : ∀ {w w' : W} {cur : Nat → Bytes} {B : Nat → Nat} {hs : List (Nat × Slice × Bytes)},
    Good w cur B hs → run zip w os = some w' →
    ∃ B' hs', Good w' (fun i => os.foldl (written zip i) (cur i)) B' hs' ∧ ∀ h ∈ hs, Op.release h.1 ∉ os → h ∈ hs' := by
  induction os with
  | nil => intro w w' cur B hs g h; cases h; exact ⟨B, hs, g, fun h hh _ => hh⟩
  | cons o os ih =>
    intro w w' cur B hs g h
    unfold run at h
    cases e : step zip w o with
    | none => rw [e] at h; cases h
    | some r =>
      obtain ⟨w1, r⟩ := r
      rw [e] at h
      obtain ⟨B1, g1⟩ := step_good g e
      obtain ⟨B2, hs2, g2, hk⟩ := ih g1 h
      refine ⟨B2, hs2, g2, fun x hx hn => hk x ?_ (fun hm => hn (List.mem_cons_of_mem _ hm))⟩
      unfold handedOut
      split
      · refine List.mem_filter.2 ⟨hx, ?_⟩
        rename_i i
        have : x.1 ≠ i := by rintro rfl; exact hn List.mem_cons_self
        simpa using this
      · split
        · exact List.mem_cons_of_mem _ hx
        · exact hx
      · exact hx

end Verif.Ar
