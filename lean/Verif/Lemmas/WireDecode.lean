import Verif.Spec.WireDecode
import Verif.Lemmas.WireFits
/-!
# Reading, exactly: one value
-/
namespace Verif.Pb
variable {S : Schema}

theorem varint_iff {b r : Bytes} {n : Nat} : readVarint b = some (n, r) ↔ ∃ x, b = x ++ r ∧ Varint x n :=
  ⟨readVarint_inv, fun ⟨x, h, hx⟩ => by rw [h, readVarint_ok hx]⟩

theorem bytes_iff {b s r : Bytes} : readBytes b = some (s, r) ↔ ∃ x, b = x ++ r ∧ Delimited s x :=
  ⟨readBytes_inv, fun ⟨x, h, hx⟩ => by rw [h, readBytes_ok hx]⟩

theorem low_little (b : Bytes) : LowFirst b (littleEndian b) := by
  induction b with
  | nil => exact .nil
  | cons c b ih => exact .cons c ih

theorem fixed_iff {b r : Bytes} {k n : Nat} : readFixed k b = some (n, r) ↔ ∃ x, b = x ++ r ∧ x.length = k ∧ LowFirst x n := by
  constructor
  · intro h
    unfold readFixed at h
    split at h
    · cases h
    · rename_i hl
      cases h
      exact ⟨b.take k, by simp, by rw [List.length_take]; omega, low_little _⟩
  · rintro ⟨x, rfl, h1, h2⟩
    exact readFixed_ok h1 h2 r

theorem map_iff {b r : Bytes} {n : Nat} (g : Nat → Nat) : ((readVarint b).map fun p => (g p.1, p.2)) = some (n, r) ↔
    ∃ x, b = x ++ r ∧ ∃ w, Varint x w ∧ n = g w := by
  rw [Option.map_eq_some_iff]
  constructor
  · rintro ⟨⟨w, y⟩, h, e⟩
    obtain ⟨x, h1, h2⟩ := varint_iff.1 h
    cases e
    exact ⟨x, h1, w, h2, rfl⟩
  · rintro ⟨x, h1, w, h2, rfl⟩
    exact ⟨(w, r), varint_iff.2 ⟨x, h1, h2⟩, rfl⟩

/-- Numbers. -/
def NumKind (k : Kind) : Prop := k ≠ .string ∧ k ≠ .bytes ∧ ∀ t, k ≠ .msg t

theorem zigzag_iff {n w : Nat} : (n < 2 ^ 32 ∧ ((w % 2 ^ 32 : Nat) : Int) = if 0 ≤ signed32 n then 2 * signed32 n else -2 * signed32 n - 1) ↔
    n = if w % 2 ^ 32 % 2 = 0 then w % 2 ^ 32 / 2 else 2 ^ 32 - 1 - w % 2 ^ 32 / 2 := by
  unfold signed32
  generalize hv : w % 2 ^ 32 = v
  have hl : v < 2 ^ 32 := by omega
  clear hv
  constructor
  · rintro ⟨h1, h2⟩
    by_cases hn : n < 2 ^ 31
    · rw [if_pos hn, if_pos (by omega)] at h2
      rw [if_pos (by omega)]; omega
    · rw [if_neg hn, if_neg (by omega)] at h2
      rw [if_neg (by omega)]; omega
  · intro h
    by_cases hp : v % 2 = 0
    · rw [if_pos hp] at h
      have hn : n < 2 ^ 31 := by omega
      rw [if_pos hn, if_pos (by omega)]
      omega
    · rw [if_neg hp] at h
      have hn : ¬ n < 2 ^ 31 := by omega
      rw [if_neg hn, if_neg (by omega)]
      omega

theorem num_iff {k : Kind} (hk : NumKind k) {b r : Bytes} {n : Nat} : readNum k b = some (n, r) ↔ ∃ x, b = x ++ r ∧ Means k n x := by
  obtain ⟨h1, h2, h3⟩ := hk
  cases k
  case string => exact absurd rfl h1
  case bytes => exact absurd rfl h2
  case msg t => exact absurd rfl (h3 t)
  case bool => exact map_iff fun w => if w = 0 then 0 else 1
  case enum => exact map_iff fun w => w % 2 ^ 32
  case uint32 => exact map_iff fun w => w % 2 ^ 32
  case sint32 =>
    rw [readNum, map_iff fun w => if w % 2 ^ 32 % 2 = 0 then w % 2 ^ 32 / 2 else 2 ^ 32 - 1 - w % 2 ^ 32 / 2]
    simp only [Means]
    exact exists_congr fun x => and_congr_right fun _ => exists_congr fun w => and_congr_right fun _ => zigzag_iff.symm
  case fixed32 => exact fixed_iff
  case fixed64 => exact fixed_iff
  all_goals exact varint_iff

theorem means_ne {k : Kind} {n : Nat} {b : Bytes} (h : Means k n b) : b ≠ [] := by
  cases k <;> simp only [Means] at h
  case bool => obtain ⟨w, h, -⟩ := h; exact base_ne h.1
  case enum => obtain ⟨w, h, -⟩ := h; exact base_ne h.1
  case uint32 => obtain ⟨w, h, -⟩ := h; exact base_ne h.1
  case sint32 => obtain ⟨w, h, -⟩ := h; exact base_ne h.1
  case int64 => exact base_ne h.1
  case uint64 => exact base_ne h.1
  case fixed32 => rintro rfl; exact absurd h.1 (by decide)
  case fixed64 => rintro rfl; exact absurd h.1 (by decide)

theorem means_kind {k : Kind} {n : Nat} {b : Bytes} (h : Means k n b) : NumKind k := by
  cases k <;> simp only [Means] at h <;> exact ⟨nofun, nofun, fun _ => nofun⟩

theorem nums_of {k : Kind} {l : List Nat} {b : Bytes} (h : AllMean k l b) (fuel : Nat) (hf : b.length ≤ fuel) : readNums k fuel b = some l := by
  induction h generalizing fuel with
  | nil => cases fuel <;> rfl
  | @cons n l b r h1 h2 ih =>
    have hne := means_ne h1
    obtain ⟨c, b', rfl⟩ := List.exists_cons_of_ne_nil hne
    cases fuel with
    | zero => simp at hf
    | succ fuel =>
      have hn := (num_iff (means_kind h1) (b := c :: b' ++ r) (r := r) (n := n)).2 ⟨_, rfl, h1⟩
      simp only [List.cons_append, List.length_cons, List.length_append] at hf hn ⊢
      rw [readNums, hn]
      · simp only
        rw [ih fuel (by omega)]; rfl
      · simp

theorem nums_to {k : Kind} (hk : NumKind k) (fuel : Nat) : ∀ {b : Bytes} {l : List Nat}, readNums k fuel b = some l → AllMean k l b := by
  induction fuel with
  | zero =>
    intro b l h
    cases b with
    | nil => rw [readNums] at h; cases h; exact .nil
    | cons c b => rw [readNums] at h; cases h
  | succ fuel ih =>
    intro b l h
    cases b with
    | nil => rw [readNums] at h; cases h; exact .nil
    | cons c b =>
      rw [readNums] at h
      · cases hn : readNum k (c :: b) with
        | none => rw [hn] at h; cases h
        | some p =>
          obtain ⟨n, r⟩ := p
          rw [hn] at h
          simp only at h
          cases hr : readNums k fuel r with
          | none => rw [hr] at h; cases h
          | some l' =>
            rw [hr] at h
            cases h
            obtain ⟨x, e, hx⟩ := (num_iff hk).1 hn
            rw [e]
            exact .cons hx (ih hr)
      · simp

theorem nums_iff {k : Kind} (hk : NumKind k) {b : Bytes} {l : List Nat} : readNums k b.length b = some l ↔ AllMean k l b :=
  ⟨nums_to hk _, fun h => nums_of h _ (Nat.le_refl _)⟩

/-! ## A known field -/

/-- What becomes of a message when a piece for `f` is read. -/
def Effect (S : Schema) (sub : Nat → Rec → Bytes → Option Rec) (t : Nat) (f : Field) (p : Piece) (m m' : Rec) : Prop :=
  match f.kind with
  | .msg t' => ∃ s x, Delimited s p.raw ∧ sub t' (if f.card = .repeated then {} else messageOf f.num m.fields) s = some x ∧
      m' = { m with fields := store S t f (.msg x.fields x.unknown) false m.fields }
  | k => if f.card = .packed then ∃ l, Part k p l ∧ m' = { m with fields := addNums S t f l m.fields }
    else ∃ (v : Val) (z : Bool), Scalar k v p.raw ∧ (z = true ↔ v.Zero) ∧ m' = { m with fields := store S t f v z m.fields }

theorem single_wire {f : Field} : f.single = wireType f.kind := by
  unfold Field.single
  rw [← wire_eq]
  rfl

theorem has_iff {f : Field} {wt : Nat} {raw : Bytes} : f.Has ⟨f.num, wt, raw⟩ ↔
    if f.card = .packed then wt = 2 ∨ wt = wireType f.kind else wt = wireType f.kind := by
  unfold Field.Has
  rw [single_wire, ← wire_eq]
  unfold Field.wireType
  split <;> rename_i h <;> simp [h]

theorem num_wire {k : Kind} (hk : NumKind k) : wireType k ≠ 2 := by
  obtain ⟨h1, h2, h3⟩ := hk
  cases k
  case string => exact absurd rfl h1
  case bytes => exact absurd rfl h2
  case msg t => exact absurd rfl (h3 t)
  all_goals decide

theorem known_num {t : Nat} {f : Field} {k : Kind} (hk : NumKind k) {wt : Nat} {m m' : Rec} {b r : Bytes} :
    ((if f.card = .packed then
      if wt = 2 then
        match readBytes b with
        | none => .bad
        | some (s, r) =>
          match readNums k s.length s with
          | none => .bad
          | some l => Got.ok ({ m with fields := addNums S t f l m.fields }, r)
      else if wt = wireType k then
        match readNum k b with
        | none => .bad
        | some (n, r) => .ok ({ m with fields := addNums S t f [n] m.fields }, r)
      else .mismatch
    else if wt ≠ wireType k then .mismatch else
    match readNum k b with
    | none => .bad
    | some (n, r) => .ok ({ m with fields := store S t f (.num n) (n == 0) m.fields }, r)) : Got (Rec × Bytes)) = .ok (m', r) ↔
    ∃ raw, b = raw ++ r ∧ (if f.card = .packed then wt = 2 ∨ wt = wireType k else wt = wireType k) ∧
      if f.card = .packed then ∃ l, Part k ⟨f.num, wt, raw⟩ l ∧ m' = { m with fields := addNums S t f l m.fields }
      else ∃ n, Means k n raw ∧ m' = { m with fields := store S t f (.num n) (n == 0) m.fields } := by
  have hw := num_wire hk
  by_cases hp : f.card = .packed
  · simp only [if_pos hp]
    by_cases h2 : wt = 2
    · simp only [Part, h2, true_or, true_and, if_true]
      constructor
      · intro h
        cases hb : readBytes b with
        | none => rw [hb] at h; cases h
        | some p =>
          obtain ⟨s, y⟩ := p
          rw [hb] at h
          simp only at h
          cases hn : readNums k s.length s with
          | none => rw [hn] at h; cases h
          | some l =>
            rw [hn] at h
            cases h
            obtain ⟨x, e, hx⟩ := bytes_iff.1 hb
            exact ⟨x, e, l, ⟨s, hx, (nums_iff hk).1 hn⟩, rfl⟩
      · rintro ⟨raw, e, l, ⟨s, hs, hl⟩, rfl⟩
        rw [bytes_iff.2 ⟨raw, e, hs⟩]
        simp only
        rw [(nums_iff hk).2 hl]
    · simp only [Part, h2, false_or, if_false]
      constructor
      · intro h
        split at h
        · rename_i hw'
          cases hn : readNum k b with
          | none => rw [hn] at h; cases h
          | some p =>
            obtain ⟨n, y⟩ := p
            rw [hn] at h
            cases h
            obtain ⟨x, e, hx⟩ := (num_iff hk).1 hn
            exact ⟨x, e, hw', [n], ⟨n, rfl, hx⟩, rfl⟩
        · cases h
      · rintro ⟨raw, e, hw', l, ⟨n, rfl, hn⟩, rfl⟩
        rw [if_pos hw', (num_iff hk).2 ⟨raw, e, hn⟩]
  · simp only [if_neg hp]
    constructor
    · intro h
      split at h
      · cases h
      · rename_i hw'
        cases hn : readNum k b with
        | none => rw [hn] at h; cases h
        | some p =>
          obtain ⟨n, y⟩ := p
          rw [hn] at h
          cases h
          obtain ⟨x, e, hx⟩ := (num_iff hk).1 hn
          exact ⟨x, e, by simpa using hw', n, hx, rfl⟩
    · rintro ⟨raw, e, hw', n, hn, rfl⟩
      rw [if_neg (by simpa using hw'), (num_iff hk).2 ⟨raw, e, hn⟩]

/-- Reading a known field succeeds exactly if its bytes are right, and this is what it does. -/
theorem known_iff (hS : S.Proper) {sub : Nat → Rec → Bytes → Option Rec} {t : Nat} {f : Field} (hf : f ∈ S t) {wt : Nat} {m m' : Rec} {b r : Bytes} :
    readKnown S sub t f wt m b = .ok (m', r) ↔
      ∃ raw, b = raw ++ r ∧ f.Has ⟨f.num, wt, raw⟩ ∧ Effect S sub t f ⟨f.num, wt, raw⟩ m m' := by
  simp only [has_iff]
  have np : ∀ k, f.kind = k → ¬ NumKind k → f.card ≠ .packed := fun k hk hn hp => hn (by rw [← hk]; exact hS.packed t f hf hp)
  unfold readKnown Effect
  have str : ∀ s : Bytes, (s.isEmpty = true ↔ (Val.bytes s).Zero) := fun s => List.isEmpty_iff
  cases hk : f.kind
  case string =>
    simp only [if_neg (np _ hk fun h => h.1 rfl), show wireType .string = 2 from rfl]
    constructor
    · intro h
      split at h
      · cases h
      · rename_i hw
        cases hb : readBytes b with
        | none => rw [hb] at h; cases h
        | some p =>
          obtain ⟨s, y⟩ := p
          rw [hb] at h
          simp only at h
          split at h
          · rename_i hu
            cases h
            obtain ⟨x, e, hx⟩ := bytes_iff.1 hb
            exact ⟨x, e, by simpa using hw, .bytes s, s.isEmpty, ⟨s, rfl, (validUtf8_iff s).1 hu, hx⟩, str s, rfl⟩
          · cases h
    · rintro ⟨raw, e, hw, v, z, ⟨s, rfl, hu, hs⟩, hz, rfl⟩
      rw [if_neg (by simpa using hw), bytes_iff.2 ⟨raw, e, hs⟩]
      simp only
      rw [if_pos ((validUtf8_iff s).2 hu), show z = s.isEmpty from Bool.eq_iff_iff.2 (hz.trans (str s).symm)]
  case bytes =>
    simp only [if_neg (np _ hk fun h => h.2.1 rfl), show wireType .bytes = 2 from rfl]
    constructor
    · intro h
      split at h
      · cases h
      · rename_i hw
        cases hb : readBytes b with
        | none => rw [hb] at h; cases h
        | some p =>
          obtain ⟨s, y⟩ := p
          rw [hb] at h
          cases h
          obtain ⟨x, e, hx⟩ := bytes_iff.1 hb
          exact ⟨x, e, by simpa using hw, .bytes s, s.isEmpty, ⟨s, rfl, hx⟩, str s, rfl⟩
    · rintro ⟨raw, e, hw, v, z, ⟨s, rfl, hs⟩, hz, rfl⟩
      rw [if_neg (by simpa using hw), bytes_iff.2 ⟨raw, e, hs⟩]
      simp only
      rw [show z = s.isEmpty from Bool.eq_iff_iff.2 (hz.trans (str s).symm)]
  case msg t' =>
    simp only [if_neg (np _ hk fun h => h.2.2 _ rfl), show wireType (.msg t') = 2 from rfl]
    constructor
    · intro h
      split at h
      · cases h
      · rename_i hw
        cases hb : readBytes b with
        | none => rw [hb] at h; cases h
        | some p =>
          obtain ⟨s, y⟩ := p
          rw [hb] at h
          simp only at h
          cases hr : sub t' (if f.card = .repeated then {} else messageOf f.num m.fields) s with
          | none => rw [hr] at h; cases h
          | some x =>
            rw [hr] at h
            cases h
            obtain ⟨raw, e, hx⟩ := bytes_iff.1 hb
            exact ⟨raw, e, by simpa using hw, s, x, hx, hr, rfl⟩
    · rintro ⟨raw, e, hw, s, x, hs, hx, rfl⟩
      rw [if_neg (by simpa using hw), bytes_iff.2 ⟨raw, e, hs⟩]
      simp only
      rw [hx]
  all_goals
    simp only
    refine (known_num (by exact ⟨nofun, nofun, fun _ => nofun⟩)).trans ?_
    refine exists_congr fun raw => and_congr_right fun _ => and_congr_right fun _ => ?_
    split
    · rfl
    · constructor
      · rintro ⟨n, hn, rfl⟩
        exact ⟨.num n, n == 0, ⟨n, rfl, hn⟩, by simp [Val.Zero], rfl⟩
      · rintro ⟨v, z, ⟨n, rfl, hn⟩, hz, rfl⟩
        exact ⟨n, hn, by rw [show z = (n == 0) from Bool.eq_iff_iff.2 (hz.trans (by simp [Val.Zero]))]⟩

end Verif.Pb
