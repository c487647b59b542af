import Verif.Props.Dictionary
import Verif.Spec.Dictionary
/-!
# The dictionary of the code meets Spec/Dict.lean
-/
namespace Verif.Cache
open Tr

variable {hash : Bytes → Nat} {c : Config} {K : List Bytes}

theorem present_le (w : World) (K : List Bytes) : present w K ≤ K.length := List.countP_le_length

theorem countP_lt {α : Type} {p q : α → Bool} {l : List α} (h : ∀ x ∈ l, p x → q x) {a : α} (ha : a ∈ l) (hp : p a = false) (hq : q a = true) :
    l.countP p + 1 ≤ l.countP q := by
  induction l with
  | nil => cases ha
  | cons x xs ih =>
    rw [List.countP_cons, List.countP_cons]
    have hx := h x (by simp)
    have hmono : xs.countP p ≤ xs.countP q := List.countP_mono_left fun y hy => h y (by simp [hy])
    rcases List.mem_cons.1 ha with rfl | ha
    · rw [hp, hq]; simp; omega
    · have := ih (fun y hy => h y (by simp [hy])) ha
      cases hpx : p x
      · cases q x <;> simp <;> omega
      · rw [hx hpx]; simp; omega

/-- A translation keeps the dictionary in a good state and does what `Dict.Lawful` says. -/
theorem good_tr (hpos : 0 < c.lease) (hinj : ∀ a ∈ K, ∀ b ∈ K, hash a = hash b → a = b) {s : CState} (hg : GoodState hash c K s) {k : Bytes} (hk : k ∈ K) :
    ∃ s' n, cachedTr hash s k = some (s', n) ∧ GoodState hash c K s' ∧ findKey s'.w k = some n ∧
      (∀ a m, findKey s.w a = some m → findKey s'.w a = some m) ∧ (∀ a m, findKey s'.w a = some m → a = k ∨ findKey s.w a = some m) ∧
      (s.w.tr.seq.next + (K.length - present s.w K) ≤ s.w.tr.seq.leased →
        s'.w.tr.seq.leased = s.w.tr.seq.leased ∧ s'.w.tr.seq.next + (K.length - present s'.w K) ≤ s'.w.tr.seq.leased) := by
  have hcache : ∀ a ∈ K, ∀ n, (if (s.oracle 0).2 (hash a) then none else s.cache (hash a)) = some n → findKey s.w a = some n := by
    intro a ha n h
    split at h
    · cases h
    · exact hg.cache a ha n h
  unfold cachedTr
  cases hc : (if (s.oracle 0).2 (hash k) = true then none else s.cache (hash k)) with
  | some v =>
    simp only [hc]
    exact ⟨_, v, rfl, ⟨hg.life, hg.pending, hcache, hg.small, hg.room⟩, hcache k hk v hc, fun a m h => h, fun a m h => .inr h, fun h => ⟨rfl, h⟩⟩
  | none =>
    simp only [hc]
    have hle := present_le s.w K
    have hroom : Room (names c.pfx c.spare) c.lease s.w (.begin 0 k) := by
      cases hf : findKey s.w k with
      | some n =>
        left
        have := (hg.life.find k n).1 hf
        rw [hg.life.keys, this.2]; rfl
      | none =>
        have hlt : present s.w K < K.length := by
          have := countP_lt (l := K) (p := fun k => (findKey s.w k).isSome) (q := fun _ => true) (fun _ _ _ => rfl) hk (by simp [hf]) rfl
          simp only [List.countP_true] at this
          exact this
        rcases hg.room with h | ⟨h1, h2⟩
        · refine .inr (.inr ⟨names_same h, ?_⟩)
          have := hg.small
          have : 2 * c.lease ≤ (K.length - present s.w K + 2) * c.lease := Nat.mul_le_mul_right _ (by omega)
          omega
        · refine .inr (.inl ?_); omega
    obtain ⟨w', n, ht⟩ := life_translate hpos hg.life hg.pending k hroom
    rw [ht.run]
    refine ⟨_, n, rfl, ⟨ht.inv, ht.pending, ?_, ?_, ?_⟩, ht.hit, ht.keep, ht.only, ?_⟩
    · intro a ha m h
      simp only at h
      split at h
      · rename_i he
        cases h
        rw [hinj a ha k hk he.2]; exact ht.hit
      · exact ht.keep a m (hcache a ha m h)
    all_goals
      cases hf : findKey s.w k with
      | some m =>
        have e := ht.old (by rw [hf]; rfl)
        simp only [e]
        first | exact hg.small | exact hg.room | exact fun h => ⟨rfl, h⟩ | exact fun h => ⟨trivial, h⟩
      | none =>
        have hp : present s.w K + 1 ≤ present w' K := by
          refine countP_lt (fun a _ h => ?_) hk (by simp [hf]) (by simp [ht.hit])
          simp only [Option.isSome_iff_exists] at h ⊢
          obtain ⟨m, hm⟩ := h
          exact ⟨m, ht.keep a m hm⟩
        have hle' := present_le w' K
        simp only
        first
          | (intro h2
             obtain ⟨a, b⟩ := ht.room hf (by omega)
             exact ⟨a, by omega⟩)
          | (have hgr := ht.grow hf
             have hsm := hg.small
             have h1 : (K.length - present w' K + 2) * c.lease + c.lease ≤ (K.length - present s.w K + 2) * c.lease := by
               rw [← Nat.succ_mul]
               exact Nat.mul_le_mul_right _ (by omega)
             omega)
          | (rcases hg.room with h | ⟨h1, h2⟩
             · exact .inl h
             · obtain ⟨a, b⟩ := ht.room hf (by omega)
               exact .inr ⟨h1, by omega⟩)

theorem only_tr (hpos : 0 < c.lease) (hinj : ∀ a ∈ K, ∀ b ∈ K, hash a = hash b → a = b) : ∀ {st : CState} {k : Bytes} {st' : CState} {n : Nat}, GoodState hash c K st → (onlyDict hash c K).tr st k = some (st', n) →
      GoodState hash c K st' ∧ findKey st'.w k = some n ∧
      (∀ a m, findKey st.w a = some m → findKey st'.w a = some m) ∧ (∀ a m, findKey st'.w a = some m → a = k ∨ findKey st.w a = some m) ∧
      (st.w.tr.seq.next + (K.length - present st.w K) ≤ st.w.tr.seq.leased →
        st'.w.tr.seq.leased = st.w.tr.seq.leased ∧ st'.w.tr.seq.next + (K.length - present st'.w K) ≤ st'.w.tr.seq.leased) := by
  intro st k st' n hg h
  by_cases hk : k ∈ K
  · simp only [onlyDict, if_pos hk] at h
    obtain ⟨s', m, a, b⟩ := good_tr hpos hinj hg hk
    rw [a] at h
    cases h
    exact b
  · simp only [onlyDict, if_neg hk] at h; cases h

theorem only_lawful (hpos : 0 < c.lease) (hinj : ∀ a ∈ K, ∀ b ∈ K, hash a = hash b → a = b) : (onlyDict hash c K).Lawful where
  good := fun hg h => (only_tr hpos hinj hg h).1
  hit := fun hg h => (only_tr hpos hinj hg h).2.1
  keep := fun hg h ha => (only_tr hpos hinj hg h).2.2.1 _ _ ha
  only := fun hg h ha => (only_tr hpos hinj hg h).2.2.2.1 _ _ ha

theorem only_injective : (onlyDict hash c K).Injective where
  back := fun hg h => (hg.life.find_lt h).2
  inj := fun hg h h' => Option.some.inj ((hg.life.find_lt h).2.symm.trans (hg.life.find_lt h').2)
  small := fun hg h => by
    have := (hg.life.find_lt h).1
    have := hg.life.nl
    have := hg.life.small
    omega

/-- The same for the first process: it needs no second lease. -/
noncomputable def firstDict (hash : Bytes → Nat) (c : Config) (K : List Bytes) : Dict CState :=
  { onlyDict hash c K with Good := fun s => GoodState hash c K s ∧ s.w.tr.seq.leased = c.lease ∧ s.w.tr.seq.next + (K.length - present s.w K) ≤ s.w.tr.seq.leased }

theorem first_lawful (hpos : 0 < c.lease) (hinj : ∀ a ∈ K, ∀ b ∈ K, hash a = hash b → a = b) : (firstDict hash c K).Lawful where
  good := fun hg h => by
    have := only_tr hpos hinj hg.1 h
    obtain ⟨a, b⟩ := this.2.2.2.2 hg.2.2
    exact ⟨this.1, a.trans hg.2.1, b⟩
  hit := fun hg h => (only_tr hpos hinj hg.1 h).2.1
  keep := fun hg h ha => (only_tr hpos hinj hg.1 h).2.2.1 _ _ ha
  only := fun hg h ha => (only_tr hpos hinj hg.1 h).2.2.2.1 _ _ ha

theorem first_injective : (firstDict hash c K).Injective where
  back := fun hg h => (hg.1.life.find_lt h).2
  inj := fun hg h h' => Option.some.inj ((hg.1.life.find_lt h).2.symm.trans (hg.1.life.find_lt h').2)
  small := fun hg h => only_injective.small hg.1 h

/-- The first start, on a database without entries of the dictionary. -/
theorem good_start (hb : (K.length + 3) * c.lease < 2 ^ 56) (hK : c.spare < 3 ∨ K.length ≤ c.lease) {db : KV} (hf : Fresh c.pfx db)
    (oracle : Nat → Bool × (Nat → Bool)) : ∃ s, reopen c db oracle = some s ∧ GoodState hash c K s ∧ (∀ k, findKey s.w k = none) ∧ s.w.tr.seq.leased = c.lease ∧ s.w.tr.seq.next = 0 := by
  have e3 : (K.length + 3) * c.lease = c.lease + (K.length + 2) * c.lease := by
    rw [show K.length + 3 = 1 + (K.length + 2) by omega, Nat.add_mul, Nat.one_mul]
  have h2 : 2 * c.lease ≤ (K.length + 2) * c.lease := Nat.mul_le_mul_right _ (by omega)
  obtain ⟨hi, hl, hn, hp⟩ := init_life (by omega) hf (init_eq c hf)
  have hnone := (init_stab c hf (init_eq c hf)).2
  generalize hw : ({ db := _, tr := _, pending := _ } : World) = w at hi hl hn hp hnone
  refine ⟨⟨w, fun _ => none, oracle⟩, by simp only [reopen, init_eq c hf, hw], ⟨hi, hp, fun _ _ _ h => (nomatch h), ?_, ?_⟩, fun k => ?_, hl, hn⟩
  · simp only [hl]
    have : (K.length - present w K + 2) * c.lease ≤ (K.length + 2) * c.lease := Nat.mul_le_mul_right _ (by omega)
    omega
  · rcases hK with h | h
    · exact .inl h
    · exact .inr ⟨h, by simp only [hl, hn]; omega⟩
  · cases h : findKey w k with
    | none => rfl
    | some n =>
      have := ((hi.find k n).1 h).2
      rw [hnone k] at this; cases this

/-- The next start, on the database left by a process that ended at any moment (in the middle of a translation, or after closing the
dictionary: every step keeps `LifeInv`, `life_step`), finds the same entries. -/
theorem good_reopen (hpos : 0 < c.lease) {w : World} (hi : LifeInv (names c.pfx c.spare) c.lease w)
    (hb : w.tr.seq.leased + (K.length - present w K + 3) * c.lease < 2 ^ 56) (hK : c.spare < 3 ∨ K.length ≤ c.lease) (oracle : Nat → Bool × (Nat → Bool)) :
    ∃ s', reopen c w.db oracle = some s' ∧ GoodState hash c K s' ∧ ∀ a n, findKey s'.w a = some n ↔ findKey w a = some n := by
  have e3 : (K.length - present w K + 3) * c.lease = c.lease + (K.length - present w K + 2) * c.lease := by
    rw [show K.length - present w K + 3 = 1 + (K.length - present w K + 2) by omega, Nat.add_mul, Nat.one_mul]
  have h2 : 2 * c.lease ≤ (K.length - present w K + 2) * c.lease := Nat.mul_le_mul_right _ (by omega)
  obtain ⟨w', o, hs, hi', hf⟩ := life_step (names_ok c.pfx c.spare) rfl hpos hi .reopen (show _ < _ by omega)
  obtain ⟨hl, hn⟩ := reopen_room hi hs
  have hre : init c w.db = some w' ∧ w'.pending = [] ∧ o = .opened := by
    simp only [step] at hs
    unfold init
    split at hs
    · cases hs
    · cases hs; exact ⟨rfl, rfl, rfl⟩
  have hsame : ∀ a n, findKey w' a = some n ↔ findKey w a = some n := by
    intro a n
    rw [hi'.find, hi.find]
    constructor
    · rintro ⟨h1, h2⟩
      rcases hf.fresh a _ h2 with h | ⟨m, -, h⟩
      · exact ⟨h1, h⟩
      · rw [hre.2.2] at h; cases h
    · rintro ⟨h1, h2⟩; exact ⟨h1, hf.mono a _ h2⟩
  have hpres : present w' K = present w K := by
    unfold present
    congr 1
    funext a
    cases h : findKey w a with
    | some n => rw [(hsame a n).2 h]
    | none =>
      cases h' : findKey w' a with
      | none => rfl
      | some n => rw [(hsame a n).1 h'] at h; cases h
  refine ⟨⟨w', fun _ => none, oracle⟩, by simp only [reopen, hre.1], ⟨hi', hre.2.1, fun _ _ _ h => (nomatch h), ?_, ?_⟩, hsame⟩
  · simp only [hpres, hl]; omega
  · rcases hK with h | h
    · exact .inl h
    · exact .inr ⟨h, by simp only [hl, hn]; omega⟩

/-- Every state of the process between two translations is good, and stays so: `LifeInv` is kept by the steps of a translation too. -/
theorem good_close (hpos : 0 < c.lease) {s : CState} (hg : GoodState hash c K s) :
    ∃ w' r, step c s.w .close = some (w', .closed r) ∧ LifeInv (names c.pfx c.spare) c.lease w' ∧ w'.tr.seq.leased ≤ s.w.tr.seq.leased + c.lease ∧
      ∀ a n, findKey w' a = some n ↔ findKey s.w a = some n := by
  obtain ⟨w', o, hs, hi', hf⟩ := life_step (names_ok c.pfx c.spare) rfl hpos hg.life .close trivial
  have ho : ∃ r, o = .closed r := by
    simp only [step] at hs
    split at hs
    · cases hs
    · cases hs; exact ⟨_, rfl⟩
  obtain ⟨r, rfl⟩ := ho
  refine ⟨w', r, hs, hi', (step_room hg.life (by simp) (fun _ h => by cases h) hs).1, fun a n => ?_⟩
  rw [hi'.find, hg.life.find]
  constructor
  · rintro ⟨h1, h2⟩
    rcases hf.fresh a _ h2 with h | ⟨m, -, h⟩
    · exact ⟨h1, h⟩
    · cases h
  · rintro ⟨h1, h2⟩; exact ⟨h1, hf.mono a _ h2⟩

end Verif.Cache
