import Mathlib.Data.List.Forall2
import Verif.Lemmas.Batch
/-!
# C15–C17: the index batch
-/
namespace Verif
open Tm Bt

/-- One call of `Batch.Add`. -/
structure Added where
  id : Nat
  ns : Int
  labels : Option Bm
deriving Repr

/-- A batch after a list of `Add` calls. -/
def addAll (b : Batch) (l : List Added) : Batch := l.foldl (fun b a => b.add a.id a.ns a.labels) b

theorem addAll_entries (b : Batch) (l : List Added) :
    (addAll b l).frags = b.frags ∧
    (addAll b l).entries = b.entries ++ l.map fun a => { id := a.id, labels := a.labels, q := ymdh a.ns } := by
  unfold addAll
  induction l generalizing b with
  | nil => simp
  | cons a l ih => simp only [List.foldl_cons, List.map_cons]; rw [(ih _).1, (ih _).2]; simp [Batch.add]

/-- **C15.** Building a batch succeeds, empties it, and sets exactly the bits owed to the added entries: bit position `pos s l`
of the label's shard, under each of the four calendar views of the entry's time. -/
theorem C15_batch_bits (adds : List Added) (hr : ∀ a ∈ adds, Int64 a.ns) :
    ∃ f, (addAll Batch.new adds).build = (Batch.new, some f) ∧
      ∀ shard view p, p ∈ f.bits shard view ↔
        ∃ a ∈ adds, ∃ ls, a.labels = some ls ∧ IsView a.ns view ∧ ∃ l ∈ ls, l / shardWidth = shard ∧ p = pos a.id l := by
  obtain ⟨h1, h2⟩ := addAll_entries Batch.new adds
  have hgood : ∀ e ∈ (addAll Batch.new adds).entries, Good e := by
    rw [h2]
    simp only [Batch.new, List.nil_append, List.mem_map]
    rintro e ⟨a, ha, rfl⟩
    obtain ⟨vs, hvs, -⟩ := views_isView (hr a ha)
    exact .inr (by simp [hvs])
  obtain ⟨hok, hbits⟩ := makeFragments_good (f := (addAll Batch.new adds).frags) hgood
  refine ⟨(makeFragments (addAll Batch.new adds).entries (addAll Batch.new adds).frags).1, ?_, ?_⟩
  · unfold Batch.build
    generalize makeFragments (addAll Batch.new adds).entries (addAll Batch.new adds).frags = r at hok
    obtain ⟨f, ok⟩ := r
    simp only at hok
    subst hok
    rfl
  · intro s v p
    rw [hbits, h1, h2]
    simp only [Batch.new, List.nil_append, List.mem_map]
    constructor
    · rintro (⟨_, ⟨a, ha, rfl⟩, ls, vs, hl, hvs, col, hc, hv, hs, hp⟩ | hp)
      · obtain ⟨vs', hvs', hiff, -⟩ := views_isView (hr a ha)
        simp only at hl hvs hp
        rw [hvs'] at hvs; cases hvs
        exact ⟨a, ha, ls, hl, (hiff v).1 hv, col, hc, hs, hp⟩
      · simp [Frags.bits, AMap.get] at hp
    · rintro ⟨a, ha, ls, hl, hv, col, hc, hs, hp⟩
      obtain ⟨vs, hvs, hiff, -⟩ := views_isView (hr a ha)
      exact .inl ⟨_, ⟨a, ha, rfl⟩, ls, vs, hl, hvs, col, hc, (hiff v).2 hv, hs, hp⟩

/-- **C15.** In terms of samples and labels: for ids below 2^44, sample `s` has label `l` in the fragment of a view iff some
added entry for `s` carries `l` and has that view. -/
theorem C15_batch_sample_label (adds : List Added) (hr : ∀ a ∈ adds, Int64 a.ns) (hid : ∀ a ∈ adds, a.id < 2 ^ 44) :
    ∃ f, (addAll Batch.new adds).build = (Batch.new, some f) ∧
      ∀ s l view, s < 2 ^ 44 →
        (pos s l ∈ f.bits (l / shardWidth) view ↔
          ∃ a ∈ adds, a.id = s ∧ (∃ ls, a.labels = some ls ∧ l ∈ ls) ∧ IsView a.ns view) := by
  obtain ⟨f, hb, hf⟩ := C15_batch_bits adds hr
  refine ⟨f, hb, fun s l view hs => ?_⟩
  rw [hf]
  constructor
  · rintro ⟨a, ha, ls, hl, hv, m, hm, hsh, hp⟩
    obtain ⟨e1, e2⟩ := pos_inj hs (hid a ha) hsh.symm hp
    exact ⟨a, ha, e1.symm, ⟨ls, hl, e2 ▸ hm⟩, hv⟩
  · rintro ⟨a, ha, rfl, ⟨ls, hl, hm⟩, hv⟩
    exact ⟨a, ha, ls, hl, hv, l, hm, rfl, rfl⟩

/-- Two samples, labels in two shards: the hypotheses hold and bits are set in both shards. -/
example : (∀ a ∈ [(⟨3, 0, some [5, 1048577]⟩ : Added), ⟨7, 3600000000000, some [5]⟩], Int64 a.ns ∧ a.id < 2 ^ 44) ∧
    ((addAll Batch.new [(⟨3, 0, some [5, 1048577]⟩ : Added), ⟨7, 3600000000000, some [5]⟩]).build.2.map fun f =>
      (f.bits 0 (viewPrefix ++ pad4 1970), f.bits 1 (viewPrefix ++ pad4 1970))) =
      some ([pos 3 5, pos 7 5], [pos 3 1]) := by
  constructor
  · simp [Int64]
  · decide +kernel

/-- **C16.** For ids below 2^44 the sample and the label are read back from shard and position. -/
theorem C16_position_decodes (s l : Nat) (hs : s < 2 ^ 44) :
    pos s l / 2 ^ 20 = s ∧ (l / shardWidth) * 2 ^ 20 + pos s l % 2 ^ 20 = l := by
  have h1 := pos_row hs l
  have h2 := pos_col hs l
  unfold shardWidth at *
  omega

/-- **C16.** Different (sample, label) pairs have a different shard or position. -/
theorem C16_position_injective (s t l m : Nat) (hs : s < 2 ^ 44) (ht : t < 2 ^ 44) :
    (l / shardWidth, pos s l) = (m / shardWidth, pos t m) ↔ (s, l) = (t, m) := by
  constructor
  · intro h
    rw [Prod.mk.injEq] at h
    obtain ⟨e1, e2⟩ := pos_inj hs ht h.1 h.2
    rw [e1, e2]
  · intro h; cases h; rfl

/-- **C16.** 2^44 is the first id that collides: it shares every position with sample 0, and smaller ids collide with none. -/
theorem C16_first_collision (s l : Nat) :
    pos (2 ^ 44) l = pos 0 l ∧ (s < 2 ^ 44 → ∀ t, t < s → ∀ m, pos t m ≠ pos s l) := by
  constructor
  · unfold pos shardWidth; omega
  · intro hs t ht m he
    have h1 := pos_row hs l
    have h2 := pos_row (show t < 2 ^ 44 by omega) m
    rw [he] at h2; omega

/-- **C16.** All bits of one sample and shard lie in its 16 container keys. -/
theorem C16_container_keys (s l : Nat) (hs : s < 2 ^ 44) :
    16 * s ≤ key (pos s l) ∧ key (pos s l) < 16 * (s + 1) := by
  rw [pos_small hs]; unfold key shardWidth; omega

example : pos 7 1048581 = 7 * 2 ^ 20 + 5 := by decide

/-- The entries added since the last successful build, at each build of a sequence of operations. -/
def pendings : List Entry → List BOp → List (List Entry)
  | _, [] => []
  | p, .add id ns ls :: ops => pendings (p ++ [⟨id, ls, ymdh ns⟩]) ops
  | p, .addRaw id q ls :: ops => pendings (p ++ [⟨id, ls, q⟩]) ops
  | p, .build :: ops => p :: pendings (if ∀ e ∈ p, Good e then [] else p) ops

/-- What a build of entries `p` must return: an error when one of them has no views, else exactly their bits. -/
def BuildsTo (p : List Entry) (r : Option Frags) : Prop :=
  ((∀ e ∈ p, Good e) ∧ ∃ f, r = some f ∧ ∀ s v x, x ∈ f.bits s v ↔ ∃ e ∈ p, Owed e s v x) ∨
  ((¬ ∀ e ∈ p, Good e) ∧ r = none)

/-- **C17.** Over every sequence of adds and (successful or failing) builds, each build returns exactly the bits of the
entries added since the last successful build; after a failed one the entries are still there. -/
theorem C17_no_leak (ops : List BOp) :
    List.Forall₂ BuildsTo (pendings [] ops) (Batch.new.run ops).2 := by
  have key : ∀ (ops : List BOp) (b : Batch), (∀ s v x, x ∈ b.frags.bits s v → ∃ e ∈ b.entries, Owed e s v x) →
      List.Forall₂ BuildsTo (pendings b.entries ops) (b.run ops).2 := by
    intro ops
    induction ops with
    | nil => intro b _; exact .nil
    | cons op ops ih =>
      intro b hb
      have hgrow : ∀ e : Entry, ∀ s v x, x ∈ b.frags.bits s v → ∃ e' ∈ b.entries ++ [e], Owed e' s v x := by
        intro e s v x hx
        obtain ⟨e', he', ho⟩ := hb s v x hx
        exact ⟨e', by simp [he'], ho⟩
      cases op with
      | add id ns ls => exact ih { b with entries := b.entries ++ [⟨id, ls, ymdh ns⟩] } (hgrow _)
      | addRaw id q ls => exact ih { b with entries := b.entries ++ [⟨id, ls, q⟩] } (hgrow _)
      | build =>
        by_cases hg : ∀ e ∈ b.entries, Good e
        · obtain ⟨hok, hbits⟩ := makeFragments_good (f := b.frags) hg
          have hbuild : b.build = (Batch.new, some (makeFragments b.entries b.frags).1) := by
            unfold Batch.build
            generalize makeFragments b.entries b.frags = r at hok
            obtain ⟨f, ok⟩ := r
            simp only at hok; subst hok; rfl
          have hrun : (b.run (.build :: ops)).2 = some (makeFragments b.entries b.frags).1 :: (Batch.new.run ops).2 := by
            simp [Batch.run, Batch.step, hbuild]
          rw [hrun]
          simp only [pendings]
          refine .cons (.inl ⟨hg, _, rfl, fun s v x => ?_⟩) ?_
          · rw [hbits]
            exact ⟨fun h => h.elim id (hb s v x), fun h => .inl h⟩
          · rw [if_pos hg]
            exact ih Batch.new (by intro s v x hx; simp [Batch.new, Frags.bits, AMap.get] at hx)
        · obtain ⟨hok, hbits⟩ := makeFragments_bad (f := b.frags) hg
          have hbuild : b.build = ({ b with frags := (makeFragments b.entries b.frags).1 }, none) := by
            unfold Batch.build
            generalize makeFragments b.entries b.frags = r at hok
            obtain ⟨f, ok⟩ := r
            simp only at hok; subst hok; rfl
          have hrun : (b.run (.build :: ops)).2 =
              none :: ((Batch.mk b.entries (makeFragments b.entries b.frags).1).run ops).2 := by
            simp [Batch.run, Batch.step, hbuild]
          rw [hrun]
          simp only [pendings]
          refine .cons (.inr ⟨hg, rfl⟩) ?_
          rw [if_neg hg]
          exact ih { b with frags := (makeFragments b.entries b.frags).1 } (by
            intro s v x hx
            exact (hbits s v x hx).elim id (hb s v x))
  exact key ops Batch.new (by intro s v x hx; simp [Batch.new, Frags.bits, AMap.get] at hx)

/-- A failing build between two successful ones: three builds, the second one fails, the third fails again because the bad
entry is kept. -/
example : (Batch.new.run [.add 1 0 (some [2]), .build, .add 2 0 (some [3]), .addRaw 3 [] (some [4]), .build, .build]).2.map
    (·.isSome) = [true, false, false] ∧
    (pendings [] [.add 1 0 (some [2]), .build, .add 2 0 (some [3]), .addRaw 3 [] (some [4]), .build, .build]).map (·.length) =
      [1, 2, 2] := by decide +kernel

end Verif
