import Verif.Lemmas.Bitmap
import Verif.Lemmas.Time
import Verif.Model.Batch
/-!
# Facts about batches
-/
namespace Verif.Bt
open Tm

theorem mem_bits_directAdd {f : Frags} {s s' : Nat} {v v' : Bytes} {x p : Nat} :
    p ∈ (f.directAdd s v x).bits s' v' ↔ (s = s' ∧ v = v' ∧ p = x) ∨ p ∈ f.bits s' v' := by
  unfold Frags.directAdd Frags.bits
  simp only [AMap.get_set]
  by_cases hs : s = s'
  · subst hs
    simp only [if_true, Option.getD_some, AMap.get_set]
    by_cases hv : v = v'
    · subst hv; simp [Bm.mem_add]
    · simp [hv]
  · simp [hs]

/-- The shards that have at least one view. -/
theorem keys_directAdd {f : Frags} {s s' : Nat} {v : Bytes} {x : Nat} :
    ((f.directAdd s v x).get s').isSome ↔ s = s' ∨ (f.get s').isSome := by
  unfold Frags.directAdd
  rw [AMap.get_set]
  by_cases hs : s = s' <;> simp [hs]

theorem mem_addViews {id col : Nat} {vs : List Bytes} {f : Frags} {s : Nat} {v : Bytes} {p : Nat} :
    p ∈ Frags.bits (vs.foldl (fun f v => f.directAdd (col / shardWidth) v (pos id col)) f) s v ↔
      (v ∈ vs ∧ col / shardWidth = s ∧ p = pos id col) ∨ p ∈ f.bits s v := by
  induction vs generalizing f with
  | nil => simp
  | cons w ws ih =>
    rw [List.foldl_cons, ih, mem_bits_directAdd, List.mem_cons]
    constructor
    · rintro (⟨h1, h2, h3⟩ | ⟨h1, h2, h3⟩ | h)
      · exact .inl ⟨.inr h1, h2, h3⟩
      · exact .inl ⟨.inl h2.symm, h1, h3⟩
      · exact .inr h
    · rintro (⟨h1 | h1, h2, h3⟩ | h)
      · exact .inr (.inl ⟨h2, h1.symm, h3⟩)
      · exact .inl ⟨h1, h2, h3⟩
      · exact .inr (.inr h)

theorem mem_addCols {id : Nat} {vs : List Bytes} {cols : List Nat} {f : Frags} {s : Nat} {v : Bytes} {p : Nat} :
    p ∈ Frags.bits (addCols id vs cols f) s v ↔
      (∃ col ∈ cols, v ∈ vs ∧ col / shardWidth = s ∧ p = pos id col) ∨ p ∈ f.bits s v := by
  unfold addCols
  induction cols generalizing f with
  | nil => simp
  | cons c cs ih =>
    rw [List.foldl_cons, ih, mem_addViews]
    simp only [List.mem_cons, exists_eq_or_imp]
    constructor
    · rintro (h | h | h) <;> simp [h]
    · rintro ((h | h) | h) <;> simp [h]

/-- Bit `p` of `shard`, `view` is owed to entry `e`. -/
def Owed (e : Entry) (shard : Nat) (view : Bytes) (p : Nat) : Prop :=
  ∃ ls vs, e.labels = some ls ∧ viewsOf e.q quantumYMDH = some vs ∧
    ∃ col ∈ ls, view ∈ vs ∧ col / shardWidth = shard ∧ p = pos e.id col

/-- The entry can be built. -/
def Good (e : Entry) : Prop := e.labels = none ∨ (viewsOf e.q quantumYMDH).isSome

instance (e : Entry) : Decidable (Good e) := by unfold Good; infer_instance

theorem makeFragments_good {es : List Entry} {f : Frags} (h : ∀ e ∈ es, Good e) :
    (makeFragments es f).2 = true ∧
    ∀ s v p, p ∈ (makeFragments es f).1.bits s v ↔ (∃ e ∈ es, Owed e s v p) ∨ p ∈ f.bits s v := by
  induction es generalizing f with
  | nil => simp [makeFragments]
  | cons e es ih =>
    have he := h e (by simp)
    have hes : ∀ e ∈ es, Good e := fun x hx => h x (by simp [hx])
    cases hl : e.labels with
    | none =>
      have := ih (f := f) hes
      simp only [makeFragments, hl, this.1, true_and]
      intro s v p
      rw [this.2]
      simp [Owed, hl]
    | some ls =>
      rcases he with he | he
      · rw [hl] at he; cases he
      obtain ⟨vs, hvs⟩ := Option.isSome_iff_exists.1 he
      have := ih (f := addCols e.id vs ls f) hes
      simp only [makeFragments, hl, hvs, this.1, true_and]
      intro s v p
      rw [this.2, mem_addCols]
      have ho : Owed e s v p ↔ ∃ col ∈ ls, v ∈ vs ∧ col / shardWidth = s ∧ p = pos e.id col := by
        constructor
        · rintro ⟨ls', vs', h1, h2, h3⟩
          rw [hl] at h1; rw [hvs] at h2; cases h1; cases h2; exact h3
        · intro h3; exact ⟨ls, vs, hl, hvs, h3⟩
      simp only [List.mem_cons, exists_eq_or_imp, ho]
      constructor
      · rintro (h | h | h)
        · exact .inl (.inr h)
        · exact .inl (.inl h)
        · exact .inr h
      · rintro ((h | h) | h)
        · exact .inr (.inl h)
        · exact .inl h
        · exact .inr (.inr h)

theorem makeFragments_bad {es : List Entry} {f : Frags} (h : ¬ ∀ e ∈ es, Good e) :
    (makeFragments es f).2 = false ∧
    ∀ s v p, p ∈ (makeFragments es f).1.bits s v → (∃ e ∈ es, Owed e s v p) ∨ p ∈ f.bits s v := by
  induction es generalizing f with
  | nil => simp at h
  | cons e es ih =>
    cases hl : e.labels with
    | none =>
      have := ih (f := f) (fun hes => h (by
        intro x hx
        rcases List.mem_cons.1 hx with rfl | hx
        · exact .inl hl
        · exact hes x hx))
      simp only [makeFragments, hl, this.1, true_and]
      intro s v p hp
      rcases this.2 s v p hp with ⟨x, hx, ho⟩ | hp
      · exact .inl ⟨x, by simp [hx], ho⟩
      · exact .inr hp
    | some ls =>
      cases hvs : viewsOf e.q quantumYMDH with
      | none => simp only [makeFragments, hl, hvs, true_and]; intro s v p hp; exact .inr hp
      | some vs =>
        have := ih (f := addCols e.id vs ls f) (fun hes => h (by
          intro x hx
          rcases List.mem_cons.1 hx with rfl | hx
          · exact .inr (by simp [hvs])
          · exact hes x hx))
        simp only [makeFragments, hl, hvs, this.1, true_and]
        intro s v p hp
        rcases this.2 s v p hp with ⟨x, hx, ho⟩ | hp
        · exact .inl ⟨x, by simp [hx], ho⟩
        · rw [mem_addCols] at hp
          rcases hp with hp | hp
          · exact .inl ⟨e, by simp, ls, vs, hl, hvs, hp⟩
          · exact .inr hp

theorem pos_lt (s l : Nat) : pos s l < 2 ^ 64 := Nat.mod_lt _ (by decide)

theorem pos_small {s : Nat} (hs : s < 2 ^ 44) (l : Nat) : pos s l = s * shardWidth + l % shardWidth := by
  unfold pos shardWidth
  apply Nat.mod_eq_of_lt
  omega

theorem pos_row {s : Nat} (hs : s < 2 ^ 44) (l : Nat) : pos s l / shardWidth = s := by
  rw [pos_small hs]; unfold shardWidth; omega

theorem pos_col {s : Nat} (hs : s < 2 ^ 44) (l : Nat) : pos s l % shardWidth = l % shardWidth := by
  rw [pos_small hs]; unfold shardWidth; omega

theorem pos_inj {s t l m : Nat} (hs : s < 2 ^ 44) (ht : t < 2 ^ 44) (hsh : l / shardWidth = m / shardWidth)
    (h : pos s l = pos t m) : s = t ∧ l = m := by
  have h1 := congrArg (· / shardWidth) h
  have h2 := congrArg (· % shardWidth) h
  simp only [pos_row hs, pos_row ht, pos_col hs, pos_col ht] at h1 h2
  unfold shardWidth at *
  omega

end Verif.Bt
