import Verif.Spec.Lookup
import Verif.Lemmas.Translate
/-! # Simultaneous lookups -/
namespace Verif.Tr

/-- What the array of `keys` is like: `keys`, and room behind it. -/
structure Shape (c : Config) (extra : Nat) (h : Heap) (s : Slice) : Prop where
  arr : s.arr < h.length
  len : s.len = (names c.pfx c.spare).nk.length
  read : s.read h = (names c.pfx c.spare).nk
  cap : (h.getD s.arr []).length = s.len + room c extra

theorem shape_slices (c : Config) (extra : Nat) : Shape c extra (slices c extra).1 (slices c extra).2 := by
  obtain ⟨pfx, spare, lease⟩ := c
  have t : ∀ n, pfx.take (pfx.length + n) = pfx := fun n => List.take_of_length_le (by omega)
  have d : ∀ n, pfx.drop (pfx.length + n) = [] := fun n => List.drop_of_length_le (by omega)
  have t1 : ∀ n (l : Bytes), (pfx ++ l).take (pfx.length + n) = pfx ++ l.take n := by
    intro n l; rw [List.take_append, t]; simp
  have d1 : ∀ n (l : Bytes), (pfx ++ l).drop (pfx.length + n) = l.drop n := by
    intro n l; rw [List.drop_append, d]; simp
  by_cases h3 : spare < 3
  · have h1 : ¬ (3 ≤ spare) := by omega
    have h2 : ¬ (4 ≤ spare) := by omega
    constructor <;> simp [slices, room, names, goAppend, sSeq, sKeys, sIds, Slice.read, h3, h1, h2, t1] <;> omega
  · by_cases h4 : spare = 3
    · subst h4
      constructor <;> simp [slices, room, names, goAppend, sSeq, sKeys, sIds, Slice.read, t1, d1] <;> omega
    · obtain ⟨m, rfl⟩ : ∃ m, spare = m + 4 := ⟨spare - 4, by omega⟩
      constructor <;> simp [slices, room, names, goAppend, sSeq, sKeys, sIds, Slice.read, h3, t1, d1, List.replicate_succ] <;> omega

theorem getD_set_self (h : Heap) (i : Nat) (x : Bytes) (hi : i < h.length) : (h.set i x).getD i [] = x := by
  simp [List.getD, hi]
theorem getD_set_ne (h : Heap) {i j : Nat} (x : Bytes) (hij : i ≠ j) : (h.set i x).getD j [] = h.getD j [] := by
  simp only [List.getD, List.getElem?_set, if_neg hij]
theorem getD_append_left (h : Heap) {i : Nat} (x : Bytes) (hi : i < h.length) : (h ++ [x]).getD i [] = h.getD i [] := by
  simp [List.getD, List.getElem?_append_left hi]

section
variable {c : Config} {extra : Nat} {h : Heap} {s : Slice} (hs : Shape c extra h s) (key : Bytes)
include hs

/-- A key that fits is written behind `keys`. -/
theorem append_short (hk : key.length ≤ room c extra) :
    goAppend h s key = (h.set s.arr ((h.getD s.arr []).take s.len ++ key ++ (h.getD s.arr []).drop (s.len + key.length)), ⟨s.arr, s.len + key.length⟩) := by
  have := hs.cap
  simp only [goAppend, this]
  rw [if_pos (by omega)]

/-- A key that does not fit gets an array of its own. -/
theorem append_long (hk : room c extra < key.length) : goAppend h s key = (h ++ [(names c.pfx c.spare).nk ++ key], ⟨h.length, s.len + key.length⟩) := by
  have := hs.cap
  have hr := hs.read
  simp only [Slice.read] at hr
  simp only [goAppend, this, hr]
  rw [if_neg (by omega)]

theorem shape_append : Shape c extra (goAppend h s key).1 s := by
  by_cases hk : key.length ≤ room c extra
  · rw [append_short hs key hk]
    have hl : ((h.getD s.arr []).take s.len).length = s.len := by rw [List.length_take, hs.cap]; omega
    refine ⟨by simpa using hs.arr, hs.len, ?_, ?_⟩
    · simp only [Slice.read, getD_set_self _ _ _ hs.arr]
      rw [List.append_assoc, List.take_append_of_le_length (by omega), List.take_of_length_le (by omega)]
      exact hs.read
    · simp only [getD_set_self _ _ _ hs.arr]
      simp only [List.length_append, hl, List.length_drop, hs.cap]
      omega
  · rw [append_long hs key (by omega)]
    have := hs.arr
    exact ⟨by simp; omega, hs.len, (by simp only [Slice.read, getD_append_left _ _ hs.arr]; exact hs.read), (by rw [getD_append_left _ _ hs.arr]; exact hs.cap)⟩

/-- What the new slice shows. -/
theorem read_append : (goAppend h s key).2.read (goAppend h s key).1 = (names c.pfx c.spare).nk ++ key := by
  by_cases hk : key.length ≤ room c extra
  · rw [append_short hs key hk]
    have hl : ((h.getD s.arr []).take s.len).length = s.len := by rw [List.length_take, hs.cap]; omega
    simp only [Slice.read, getD_set_self _ _ _ hs.arr]
    rw [List.take_append_of_le_length (by rw [List.length_append, hl]; exact Nat.le_refl _), List.take_of_length_le (by rw [List.length_append, hl]; exact Nat.le_refl _)]
    rw [← hs.read]; rfl
  · rw [append_long hs key (by omega)]
    simp only [Slice.read]
    simp only [List.getD, hs.len, List.getElem?_concat_length, Option.getD_some]
    exact List.take_of_length_le (by simp)

/-- A slice of another array shows the same afterwards. -/
theorem read_other {x : Slice} (hx : x.arr < h.length) (hne : x.arr ≠ s.arr) : x.read (goAppend h s key).1 = x.read h ∧ x.arr < (goAppend h s key).1.length := by
  by_cases hk : key.length ≤ room c extra
  · rw [append_short hs key hk]
    exact ⟨by simp only [Slice.read, getD_set_ne _ _ (Ne.symm hne)], by simpa using hx⟩
  · rw [append_long hs key (by omega)]
    exact ⟨by simp only [Slice.read, getD_append_left _ _ hx], by simp; omega⟩

/-- A slice that extends `keys` in its array is covered by keys that fit. -/
theorem read_covered {k : Bytes} {n : Nat} (hk : k.length = n) (hr : (⟨s.arr, s.len + n⟩ : Slice).read h = (names c.pfx c.spare).nk ++ k) :
    (⟨s.arr, s.len + n⟩ : Slice).read (goAppend h s key).1 = (names c.pfx c.spare).nk ++ if key.length ≤ room c extra then key.take k.length ++ k.drop key.length else k := by
  by_cases hkey : key.length ≤ room c extra
  · rw [append_short hs key hkey, if_pos hkey]
    have hl : ((h.getD s.arr []).take s.len).length = s.len := by rw [List.length_take, hs.cap]; omega
    have hnk : (h.getD s.arr []).take s.len = (names c.pfx c.spare).nk := hs.read
    have hlen : s.len = (names c.pfx c.spare).nk.length := hs.len
    simp only [Slice.read] at hr ⊢
    rw [getD_set_self _ _ _ hs.arr, hnk]
    have hk2 : k = ((h.getD s.arr []).drop s.len).take n := by
      have h2 : ((h.getD s.arr []).take (s.len + n)).drop s.len = k := by rw [hr, hlen]; simp
      rw [← h2, List.drop_take]; congr 1; omega
    rw [List.append_assoc, List.take_append, hlen]
    rw [List.take_of_length_le (by omega)]
    congr 1
    rw [show (names c.pfx c.spare).nk.length + n - (names c.pfx c.spare).nk.length = n by omega, List.take_append, hk]
    congr 1
    rw [hk2, List.drop_take, List.drop_drop, hlen]
  · rw [if_neg hkey, append_long hs key (by omega)]
    simp only [Slice.read] at hr ⊢
    rw [getD_append_left _ _ hs.arr]; exact hr
end

/-- The keys of the dictionary do not change. -/
theorem step_keys {c : Config} {w w' : World} {op : Op} {o : Out} (h : step c w op = some (w', o)) (hk : w.tr.keys = (names c.pfx c.spare).nk) : w'.tr.keys = (names c.pfx c.spare).nk := by
  cases op with
  | begin t key =>
    simp only [step] at h
    split at h
    · split at h
      · cases h
      · cases h; exact hk
    · split at h
      · cases h
      · cases h; exact hk
  | commit t sp =>
    simp only [step] at h
    split at h
    · cases h; exact hk
    · split at h <;> cases h <;> exact hk
  | find key =>
    simp only [step] at h
    split at h
    · cases h; exact hk
    · split at h
      · cases h
      · cases h; exact hk
  | lookup id =>
    simp only [step] at h
    split at h <;> cases h <;> exact hk
  | bulk ids => simp only [step] at h; cases h; exact hk
  | close =>
    simp only [step] at h
    split at h
    · cases h
    · cases h; exact hk
  | reopen =>
    simp only [step] at h
    rw [new_eq] at h
    split at h
    · cases h
    · rename_i hn
      cases h
      split at hn
      · cases hn
      · cases hn; rfl

/-- The state of the machine: every lookup whose key does not fit has an array of its own. -/
structure LInv (c : Config) (extra : Nat) (v : LWorld) : Prop where
  keys : v.w.tr.keys = (names c.pfx c.spare).nk
  shape : Shape c extra v.heap v.keys
  long : ∀ l ∈ v.running, room c extra < l.key.length → l.slice.arr < v.heap.length ∧ l.slice.arr ≠ v.keys.arr ∧ l.slice.read v.heap = (names c.pfx c.spare).nk ++ l.key
  short : ∀ l ∈ v.running, l.key.length ≤ room c extra → l.slice = ⟨v.keys.arr, v.keys.len + l.key.length⟩

theorem linv_step {c : Config} {extra : Nat} {v v' : LWorld} {op : LOp} {o : Option Out} (i : LInv c extra v) (h : lstep c extra v op = some (v', o)) : LInv c extra v' := by
  have hother : ∀ (w' : World) (x : Op) (ox : Out), step c v.w x = some (w', ox) → LInv c extra { v with w := w' } :=
    fun w' x ox hx => ⟨step_keys hx i.keys, i.shape, i.long, i.short⟩
  cases op with
  | append t key =>
    simp only [lstep] at h
    split at h
    · cases h
    cases h
    refine ⟨i.keys, shape_append i.shape key, ?_, ?_⟩
    · intro l hl hlen
      rcases List.mem_append.mp hl with hl | hl
      · obtain ⟨h1, h2, h3⟩ := i.long l hl hlen
        obtain ⟨h4, h5⟩ := read_other i.shape key h1 h2
        exact ⟨h5, h2, h4.trans h3⟩
      · simp only [List.mem_singleton] at hl
        subst hl
        refine ⟨?_, ?_, read_append i.shape key⟩ <;> simp only [append_long i.shape key hlen]
        · simp
        · exact Nat.ne_of_gt i.shape.arr
    · intro l hl hlen
      rcases List.mem_append.mp hl with hl | hl
      · exact i.short l hl hlen
      · simp only [List.mem_singleton] at hl
        subst hl
        simp only [append_short i.shape key hlen]
  | get t =>
    simp only [lstep] at h
    split at h
    · cases h
    have hi : LInv c extra { v with running := v.running.filter (fun l => l.tid ≠ t) } :=
      ⟨i.keys, i.shape, fun l hl => i.long l (List.mem_filter.mp hl).1, fun l hl => i.short l (List.mem_filter.mp hl).1⟩
    split at h
    · cases h; exact hi
    · split at h
      · cases h
      · cases h; exact hi
  | other op =>
    cases op with
    | find key => cases h
    | reopen =>
      simp only [lstep] at h
      split at h
      · cases h
      rename_i w o' hw
      cases h
      exact ⟨step_keys hw i.keys, shape_slices c extra, by simp, by simp⟩
    | begin t key =>
      simp only [lstep] at h
      split at h
      · cases h
      · rename_i hw; cases h; exact hother _ _ _ hw
    | commit t sp =>
      simp only [lstep] at h
      split at h
      · cases h
      · rename_i hw; cases h; exact hother _ _ _ hw
    | lookup id =>
      simp only [lstep] at h
      split at h
      · cases h
      · rename_i hw; cases h; exact hother _ _ _ hw
    | bulk ids =>
      simp only [lstep] at h
      split at h
      · cases h
      · rename_i hw; cases h; exact hother _ _ _ hw
    | close =>
      simp only [lstep] at h
      split at h
      · cases h
      · rename_i hw; cases h; exact hother _ _ _ hw

theorem init_keys {c : Config} {db : KV} {w : World} (h : init c db = some w) : w.tr.keys = (names c.pfx c.spare).nk := by
  simp only [init, new_eq] at h
  split at h
  · cases h
  · rename_i hn
    cases h
    split at hn
    · cases hn
    · cases hn; rfl

theorem linv_start {c : Config} {extra : Nat} {w : World} (h : init c KV.empty = some w) : LInv c extra { w := w, heap := (slices c extra).1, keys := (slices c extra).2 } :=
  ⟨init_keys h, shape_slices c extra, by simp, by simp⟩

theorem lrun_append {c : Config} {extra : Nat} : ∀ (xs ys : List LOp) (v : LWorld), lrun c extra v (xs ++ ys) =
    (lrun c extra v xs).bind fun p => (lrun c extra p.1 ys).map fun q => (q.1, p.2 ++ q.2) := by
  intro xs ys
  induction xs with
  | nil => intro v; simp only [List.nil_append, lrun, Option.bind_some]; cases lrun c extra v ys <;> simp
  | cons x xs ih =>
    intro v
    simp only [List.cons_append, lrun]
    cases lstep c extra v x with
    | none => rfl
    | some p =>
      simp only [ih]
      cases lrun c extra p.1 xs with
      | none => rfl
      | some q =>
        simp only [Option.bind_some]
        cases lrun c extra q.1 ys with
        | none => rfl
        | some r => simp

theorem linv_run {c : Config} {extra : Nat} : ∀ (ops : List LOp) {v v' : LWorld} {outs : List Out}, LInv c extra v → lrun c extra v ops = some (v', outs) → LInv c extra v' := by
  intro ops
  induction ops with
  | nil => intro v v' outs i h; cases h; exact i
  | cons op ops ih =>
    intro v v' outs i h
    simp only [lrun] at h
    split at h
    · cases h
    rename_i hs
    split at h
    · cases h
    rename_i hr
    cases h
    exact ih (linv_step i hs) hr

end Verif.Tr
