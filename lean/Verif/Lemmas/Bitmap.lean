import Verif.Model.Bitmap
/-!
# Facts about bitmaps and maps
-/
namespace Verif

/-- To exhibit a result by computation. -/
theorem exists_of_any {α : Type} {o : Option α} (p : α → Bool) (h : o.any p = true) : ∃ x, o = some x ∧ p x = true := by
  cases o with
  | none => cases h
  | some x => exact ⟨x, rfl, h⟩

theorem Bm.mem_add {b : Bm} {x z : Nat} : z ∈ b.add x ↔ z = x ∨ z ∈ b := by
  induction b with
  | nil => simp [Bm.add]
  | cons y ys ih =>
    unfold Bm.add
    split
    · simp
    · split
      · rename_i _ h; subst h; simp
      · simp only [List.mem_cons, ih]; constructor <;> rintro (h | h | h) <;> simp [h]

/-- Strictly ascending. -/
def Bm.Ok (b : Bm) : Prop := b.Pairwise (· < ·)

theorem Bm.add_ok {b : Bm} (h : b.Ok) (x : Nat) : (b.add x).Ok := by
  unfold Bm.Ok at *
  induction b with
  | nil => simp [Bm.add]
  | cons y ys ih =>
    rw [List.pairwise_cons] at h
    unfold Bm.add
    split
    · rename_i hxy
      rw [List.pairwise_cons, List.pairwise_cons]
      refine ⟨?_, h⟩
      intro z hz
      rcases List.mem_cons.1 hz with rfl | hz
      · exact hxy
      · have := h.1 z hz; omega
    · split
      · rw [List.pairwise_cons]; exact h
      · rw [List.pairwise_cons]
        refine ⟨?_, ih h.2⟩
        intro z hz
        rcases Bm.mem_add.1 hz with rfl | hz
        · omega
        · exact h.1 z hz

theorem Bm.mem_or {a b : Bm} {z : Nat} : z ∈ a.or b ↔ z ∈ a ∨ z ∈ b := by
  unfold Bm.or
  induction b generalizing a with
  | nil => simp
  | cons x xs ih =>
    rw [List.foldl_cons, ih, Bm.mem_add, List.mem_cons]
    constructor
    · rintro ((h | h) | h) <;> simp [h]
    · rintro (h | h | h) <;> simp [h]

theorem Bm.or_ok {a b : Bm} (h : a.Ok) : (a.or b).Ok := by
  unfold Bm.or
  induction b generalizing a with
  | nil => exact h
  | cons x xs ih => exact ih (Bm.add_ok h x)

theorem Bm.mem_and {a b : Bm} {z : Nat} : z ∈ a.and b ↔ z ∈ a ∧ z ∈ b := by simp [Bm.and]

theorem Bm.and_ok {a b : Bm} (h : a.Ok) : (a.and b).Ok := List.Pairwise.filter _ h

/-- Ascending lists with the same members are equal. -/
theorem Bm.ext {a b : Bm} (ha : a.Ok) (hb : b.Ok) (h : ∀ z, z ∈ a ↔ z ∈ b) : a = b := by
  unfold Bm.Ok at *
  induction a generalizing b with
  | nil =>
    cases b with
    | nil => rfl
    | cons y ys => exact absurd ((h y).2 (by simp)) (by simp)
  | cons x xs ih =>
    cases b with
    | nil => exact absurd ((h x).1 (by simp)) (by simp)
    | cons y ys =>
      rw [List.pairwise_cons] at ha hb
      have hxy : x = y := by
        rcases List.mem_cons.1 ((h x).1 (by simp)) with e | e
        · exact e
        · rcases List.mem_cons.1 ((h y).2 (by simp)) with e' | e'
          · exact e'.symm
          · have := ha.1 y e'; have := hb.1 x e; omega
      subst hxy
      congr 1
      refine ih ha.2 hb.2 fun z => ⟨fun hz => ?_, fun hz => ?_⟩
      · rcases List.mem_cons.1 ((h z).1 (List.mem_cons_of_mem _ hz)) with e | e
        · have := ha.1 z hz; omega
        · exact e
      · rcases List.mem_cons.1 ((h z).2 (List.mem_cons_of_mem _ hz)) with e | e
        · have := hb.1 z hz; omega
        · exact e

variable {κ ν : Type} [DecidableEq κ]

theorem AMap.get_set (m : AMap κ ν) (k k' : κ) (v : ν) :
    (m.set k v).get k' = if k = k' then some v else m.get k' := by
  induction m with
  | nil => simp [AMap.set, AMap.get]
  | cons e r ih =>
    obtain ⟨a, b⟩ := e
    by_cases h : a = k
    · subst h; simp only [AMap.set, AMap.get, if_true]
      split <;> simp_all
    · simp only [AMap.set, AMap.get, h, if_false]
      by_cases h' : a = k'
      · subst h'; simp [Ne.symm h]
      · simp [h', ih]

theorem AMap.mem_keys {m : AMap κ ν} {k : κ} : k ∈ m.map (·.1) ↔ (m.get k).isSome := by
  induction m with
  | nil => simp [AMap.get]
  | cons e r ih =>
    obtain ⟨a, b⟩ := e
    by_cases h : a = k
    · simp [AMap.get, h]
    · simp only [AMap.get, h, List.map_cons, List.mem_cons, if_false]
      rw [← ih]; simp [Ne.symm h]

theorem AMap.set_keys (m : AMap κ ν) (k : κ) (v : ν) :
    (m.set k v).map (·.1) = if (m.get k).isSome then m.map (·.1) else m.map (·.1) ++ [k] := by
  induction m with
  | nil => simp [AMap.set, AMap.get]
  | cons e r ih =>
    obtain ⟨a, b⟩ := e
    by_cases h : a = k
    · subst h; simp [AMap.set, AMap.get]
    · simp only [AMap.set, AMap.get, h, if_false, List.map_cons, ih]
      split <;> simp

theorem AMap.set_ok {m : AMap κ ν} (h : m.Ok) (k : κ) (v : ν) : (m.set k v).Ok := by
  unfold AMap.Ok at *
  rw [AMap.set_keys]
  split
  · exact h
  · rename_i hk
    rw [← AMap.mem_keys] at hk
    exact List.nodup_append.2 ⟨h, by simp, by rintro x hx y hy rfl; simp at hy; exact hk (hy ▸ hx)⟩

theorem AMap.get_of_mem {m : AMap κ ν} (h : m.Ok) {k : κ} {v : ν} (hm : (k, v) ∈ m) : m.get k = some v := by
  unfold AMap.Ok at h
  induction m with
  | nil => simp at hm
  | cons e r ih =>
    obtain ⟨a, b⟩ := e
    rw [List.map_cons, List.nodup_cons] at h
    rcases List.mem_cons.1 hm with e | hm
    · cases e; simp [AMap.get]
    · have : a ≠ k := by
        rintro rfl; exact h.1 (List.mem_map.2 ⟨_, hm, rfl⟩)
      simp only [AMap.get, this, if_false]
      exact ih h.2 hm

theorem AMap.mem_of_get {m : AMap κ ν} {k : κ} {v : ν} (hm : m.get k = some v) : (k, v) ∈ m := by
  induction m with
  | nil => simp [AMap.get] at hm
  | cons e r ih =>
    obtain ⟨a, b⟩ := e
    by_cases h : a = k
    · subst h; simp [AMap.get] at hm; simp [hm]
    · simp only [AMap.get, h, if_false] at hm; exact List.mem_cons_of_mem _ (ih hm)

theorem AMap.get_perm {m m' : AMap κ ν} (h : m.Ok) (hp : m.Perm m') (k : κ) : m.get k = m'.get k := by
  have h' : m'.Ok := by unfold AMap.Ok at *; exact (hp.map _).nodup_iff.1 h
  cases hg : m'.get k with
  | none =>
    cases hg' : m.get k with
    | none => rfl
    | some v => have := AMap.get_of_mem h' (hp.mem_iff.1 (AMap.mem_of_get hg')); rw [hg] at this; cases this
  | some v => exact AMap.get_of_mem h (hp.mem_iff.2 (AMap.mem_of_get hg))

end Verif
