import Verif.Lemmas.WireFits
/-!
# What is read is not much longer than what was sent

A number that is not packed is one byte longer when it is packed, so a message can be longer when it is written again; here is a bound.
-/
namespace Verif.Pb
variable {S : Schema}

mutual
/-- A bound for the bytes of a value. -/
def weight : Val → Nat
  | .num _ => 10
  | .bytes b => 10 + b.length
  | .nums l => 10 + 10 * l.length
  | .msg fs u => 10 + (fweight fs + u.length)
/-- A bound for the bytes of fields. -/
def fweight : List (Nat × Val) → Nat
  | [] => 0
  | (_, v) :: r => 10 + weight v + fweight r
end

theorem fweight_cons (e : Nat × Val) (r : List (Nat × Val)) : fweight (e :: r) = 10 + weight e.2 + fweight r := by
  obtain ⟨n, v⟩ := e; rw [fweight]

theorem fweight_insert (t : Nat) (e : Nat × Val) (fs : List (Nat × Val)) : fweight (insert S t e fs) = 10 + weight e.2 + fweight fs := by
  induction fs with
  | nil => rw [insert, fweight_cons]
  | cons x r ih =>
    rw [insert]
    split
    · rw [fweight_cons]
    · rw [fweight_cons, fweight_cons, ih]; omega

theorem fweight_filter (q : Nat × Val → Bool) (fs : List (Nat × Val)) : fweight (fs.filter q) ≤ fweight fs := by
  induction fs with
  | nil => exact Nat.le_refl _
  | cons x r ih =>
    rw [List.filter_cons, fweight_cons]
    split
    · rw [fweight_cons]; omega
    · omega

theorem fweight_mem {fs : List (Nat × Val)} {e : Nat × Val} (h : e ∈ fs) : 10 + weight e.2 ≤ fweight fs := by
  induction fs with
  | nil => cases h
  | cons x r ih =>
    rw [fweight_cons]
    rcases List.mem_cons.1 h with rfl | h
    · omega
    · have := ih h; omega

theorem fweight_without {q : Nat × Val → Bool} {fs : List (Nat × Val)} {e : Nat × Val} (h : e ∈ fs) (hq : q e = false) :
    fweight (fs.filter q) + 10 + weight e.2 ≤ fweight fs := by
  induction fs with
  | nil => cases h
  | cons x r ih =>
    rw [fweight_cons, List.filter_cons]
    rcases List.mem_cons.1 h with rfl | h
    · rw [if_neg (by rw [hq]; decide)]
      have := fweight_filter q r
      omega
    · have := ih h
      split
      · rw [fweight_cons]; omega
      · omega

/-! ## Reading -/

theorem readVarint_shorter {b r : Bytes} {n : Nat} (h : readVarint b = some (n, r)) : r.length + 1 ≤ b.length := by
  obtain ⟨x, rfl, hx⟩ := readVarint_inv h
  have := varint_pos hx
  rw [List.length_append]; omega

theorem readBytes_shorter {b s r : Bytes} (h : readBytes b = some (s, r)) : s.length + r.length + 1 ≤ b.length := by
  obtain ⟨x, rfl, l, hl, rfl⟩ := readBytes_inv h
  have := varint_pos hl
  simp only [List.length_append]; omega

theorem readFixed_shorter {k n : Nat} {b r : Bytes} (h : readFixed k b = some (n, r)) : r.length + k ≤ b.length := by
  obtain ⟨⟨x, rfl, hx⟩, -⟩ := readFixed_inv h
  rw [List.length_append]; omega

theorem readNum_shorter {k : Kind} {b r : Bytes} {n : Nat} (h : readNum k b = some (n, r)) : r.length + 1 ≤ b.length := by
  cases k
  case fixed32 => have := readFixed_shorter h; omega
  case fixed64 => have := readFixed_shorter h; omega
  case int64 => exact readVarint_shorter h
  case uint64 => exact readVarint_shorter h
  case string => exact readVarint_shorter h
  case bytes => exact readVarint_shorter h
  case msg t => exact readVarint_shorter h
  all_goals
    rw [readNum, Option.map_eq_some_iff] at h
    obtain ⟨⟨m, y⟩, h1, h2⟩ := h
    cases h2
    exact readVarint_shorter h1

theorem readNums_shorter {k : Kind} (fuel : Nat) : ∀ {b : Bytes} {l : List Nat}, readNums k fuel b = some l → l.length ≤ b.length := by
  induction fuel with
  | zero =>
    intro b l h
    cases b with
    | nil => rw [readNums] at h; cases h; simp
    | cons c b => rw [readNums] at h; cases h
  | succ fuel ih =>
    intro b l h
    cases b with
    | nil => rw [readNums] at h; cases h; simp
    | cons c b =>
      rw [readNums] at h
      · cases hn : readNum k (c :: b) with
        | none => rw [hn] at h; cases h
        | some p =>
          obtain ⟨n, r⟩ := p
          rw [hn] at h
          simp only at h
          cases hr : readNums k fuel r with
          | none => rw [hr] at h; cases h
          | some l' =>
            rw [hr] at h
            cases h
            have h1 := ih hr
            have h2 := readNum_shorter hn
            rw [List.length_cons]
            omega
      · simp

/-- The weight of a message that is being read. -/
def Rec.weight (m : Rec) : Nat := fweight m.fields + m.unknown.length

theorem get_clears {t : Nat} {f : Field} {fs : List (Nat × Val)} {v : Val} (h : get f.num fs = some v) :
    fweight (fs.filter fun e => !clears S t f e.1) + 10 + weight v ≤ fweight fs := by
  refine fweight_without (e := (f.num, v)) (get_mem h) ?_
  unfold clears
  simp

theorem store_weight {t : Nat} {f : Field} {v : Val} {z : Bool} {fs : List (Nat × Val)} : fweight (store S t f v z fs) ≤ 10 + weight v + fweight fs := by
  have hs : fweight (set S t f v fs) ≤ 10 + weight v + fweight fs := by
    unfold set
    rw [fweight_insert]
    have := fweight_filter (fun e => !clears S t f e.1) fs
    simp only
    omega
  unfold store
  cases f.card with
  | repeated => simp only; rw [fweight_insert]
  | implicit =>
    simp only
    split
    · have := fweight_filter (fun e => e.1 ≠ f.num) fs
      unfold clear
      omega
    · exact hs
  | _ => exact hs

theorem store_message {t : Nat} {f : Field} {x : Rec} {fs : List (Nat × Val)} {c : Nat}
    (h : x.weight ≤ (if f.card = .repeated then ({} : Rec) else messageOf f.num fs).weight + c) :
    fweight (store S t f (.msg x.fields x.unknown) false fs) ≤ fweight fs + c + 20 := by
  have hw : weight (.msg x.fields x.unknown) = 10 + x.weight := by rw [weight]; rfl
  by_cases hr : f.card = .repeated
  · rw [if_pos hr] at h
    have h0 : ({} : Rec).weight = 0 := rfl
    have := store_weight (S := S) (t := t) (f := f) (v := .msg x.fields x.unknown) (z := false) (fs := fs)
    omega
  · rw [if_neg hr] at h
    have e : store S t f (.msg x.fields x.unknown) false fs = set S t f (.msg x.fields x.unknown) fs := by
      unfold store
      cases hc : f.card <;> first | rfl | exact absurd hc hr
    rw [e]
    unfold set
    rw [fweight_insert]
    simp only
    rw [hw]
    have h1 := fweight_filter (fun e => !clears S t f e.1) fs
    unfold messageOf at h
    cases hg : get f.num fs with
    | none => rw [hg] at h; have h0 : ({} : Rec).weight = 0 := rfl; simp only at h; omega
    | some v =>
      rw [hg] at h
      cases v with
      | msg fs' u' =>
        have h2 := get_clears (S := S) (t := t) hg
        rw [weight] at h2
        have h3 : Rec.weight ⟨fs', u'⟩ = fweight fs' + u'.length := rfl
        simp only at h
        omega
      | _ => have h0 : ({} : Rec).weight = 0 := rfl; simp only at h; omega

theorem addNums_weight {t : Nat} {f : Field} {l : List Nat} {fs : List (Nat × Val)} : fweight (addNums S t f l fs) ≤ fweight fs + 10 * l.length + 20 := by
  unfold addNums
  split
  · omega
  · unfold set
    rw [fweight_insert]
    simp only
    rw [weight, List.length_append]
    have h1 := fweight_filter (fun e => !clears S t f e.1) fs
    unfold packedOf
    cases hg : get f.num fs with
    | none => simp only [List.length_nil]; omega
    | some v =>
      cases v with
      | nums l' =>
        have h2 := get_clears (S := S) (t := t) hg
        rw [weight] at h2
        simp only
        omega
      | _ => simp only [List.length_nil]; omega

theorem readKnown_weight {d t : Nat} (ih : ∀ t m b m', readMessage S d t m b = some m' → m'.weight ≤ m.weight + 15 * b.length)
    {f : Field} {wt : Nat} {m m' : Rec} {b r : Bytes} (h : readKnown S (readMessage S d) t f wt m b = .ok (m', r)) :
    m'.weight + 15 * r.length ≤ m.weight + 15 * b.length + 15 := by
  have num : ∀ k, ((if f.card = .packed then
      if wt = 2 then
        match readBytes b with
        | none => .bad
        | some (s, r) =>
          match readNums k s.length s with
          | none => .bad
          | some l => Got.ok ({ m with fields := addNums S t f l m.fields }, r)
      else if wt = wireType k then
        match readNum k b with
        | none => .bad
        | some (n, r) => .ok ({ m with fields := addNums S t f [n] m.fields }, r)
      else .mismatch
    else if wt ≠ wireType k then .mismatch else
    match readNum k b with
    | none => .bad
    | some (n, r) => .ok ({ m with fields := store S t f (.num n) (n == 0) m.fields }, r)) : Got (Rec × Bytes)) = .ok (m', r) →
      m'.weight + 15 * r.length ≤ m.weight + 15 * b.length + 15 := by
    intro k h
    split at h
    · split at h
      · cases hb : readBytes b with
        | none => rw [hb] at h; cases h
        | some p =>
          obtain ⟨s, y⟩ := p
          rw [hb] at h
          simp only at h
          cases hn : readNums k s.length s with
          | none => rw [hn] at h; cases h
          | some l =>
            rw [hn] at h
            cases h
            have h1 := readBytes_shorter hb
            have h2 := readNums_shorter _ hn
            have h3 := addNums_weight (S := S) (t := t) (f := f) (l := l) (fs := m.fields)
            unfold Rec.weight
            simp only
            omega
      · split at h
        · cases hn : readNum k b with
          | none => rw [hn] at h; cases h
          | some p =>
            obtain ⟨n, y⟩ := p
            rw [hn] at h
            cases h
            have h1 := readNum_shorter hn
            have h3 := addNums_weight (S := S) (t := t) (f := f) (l := [n]) (fs := m.fields)
            rw [List.length_singleton] at h3
            unfold Rec.weight
            simp only
            omega
        · cases h
    · split at h
      · cases h
      · cases hn : readNum k b with
        | none => rw [hn] at h; cases h
        | some p =>
          obtain ⟨n, y⟩ := p
          rw [hn] at h
          cases h
          have h1 := readNum_shorter hn
          have h3 := store_weight (S := S) (t := t) (f := f) (v := .num n) (z := n == 0) (fs := m.fields)
          rw [weight] at h3
          unfold Rec.weight
          simp only
          omega
  have str : ∀ {s y : Bytes}, readBytes b = some (s, y) → ({ m with fields := store S t f (.bytes s) s.isEmpty m.fields } : Rec).weight + 15 * y.length ≤
      m.weight + 15 * b.length + 15 := by
    intro s y hb
    have h1 := readBytes_shorter hb
    have h3 := store_weight (S := S) (t := t) (f := f) (v := .bytes s) (z := s.isEmpty) (fs := m.fields)
    rw [weight] at h3
    unfold Rec.weight
    simp only
    omega
  unfold readKnown at h
  cases hk : f.kind <;> simp only [hk] at h
  case string =>
    split at h
    · cases h
    · cases hb : readBytes b with
      | none => rw [hb] at h; cases h
      | some p =>
        obtain ⟨s, y⟩ := p
        rw [hb] at h
        simp only at h
        split at h
        · cases h
          exact str hb
        · cases h
  case bytes =>
    split at h
    · cases h
    · cases hb : readBytes b with
      | none => rw [hb] at h; cases h
      | some p =>
        obtain ⟨s, y⟩ := p
        rw [hb] at h
        cases h
        exact str hb
  case msg t' =>
    split at h
    · cases h
    · cases hb : readBytes b with
      | none => rw [hb] at h; cases h
      | some p =>
        obtain ⟨s, y⟩ := p
        rw [hb] at h
        simp only at h
        cases hr : readMessage S d t' (if f.card = .repeated then {} else messageOf f.num m.fields) s with
        | none => rw [hr] at h; cases h
        | some x =>
          rw [hr] at h
          cases h
          have h1 := readBytes_shorter hb
          have h2 := store_message (S := S) (t := t) (fs := m.fields) (ih _ _ _ _ hr)
          unfold Rec.weight
          simp only
          omega
  all_goals exact num _ h

theorem readUnknown_weight {num wt : Nat} (h2 : num < 2 ^ 29) (h3 : wt < 8) {m m' : Rec} {b r : Bytes} (h : readUnknown num wt m b = some (m', r)) :
    m'.weight + 15 * r.length ≤ m.weight + 15 * b.length + 15 := by
  unfold readUnknown at h
  cases hs : skip (2 * b.length + 2) (recursionLimit + 1) num wt b with
  | none => rw [hs] at h; cases h
  | some y =>
    rw [hs] at h
    cases h
    obtain ⟨x, rfl, hr⟩ := skip_inv _ _ _ _ _ _ hs
    have e : (x ++ r).take ((x ++ r).length - r.length) = x := by simp
    have ht : (tag num wt).length ≤ 4 + 1 := varint_length 4 _ (by omega)
    unfold Rec.weight
    simp only [List.length_append] at *
    rw [e]
    omega

theorem readField_weight {d t : Nat} (ih : ∀ t m b m', readMessage S d t m b = some m' → m'.weight ≤ m.weight + 15 * b.length) {m m' : Rec} {b r : Bytes}
    (h : readField S (readMessage S d) t m b = some (m', r)) : m'.weight + 15 * r.length ≤ m.weight + 15 * b.length := by
  unfold readField at h
  cases ht : readTag b with
  | none => rw [ht] at h; cases h
  | some p =>
    obtain ⟨num, wt, y⟩ := p
    rw [ht] at h
    simp only at h
    obtain ⟨l, rfl, hl, h1, h2, h3⟩ := readTag_inv ht
    have hp := varint_pos hl
    rw [List.length_append]
    split at h
    · cases h
    · cases hf : S.field t num with
      | none =>
        rw [hf] at h
        have := readUnknown_weight h2 h3 h
        omega
      | some f =>
        rw [hf] at h
        simp only at h
        cases hr : readKnown S (readMessage S d) t f wt m y with
        | ok x =>
          rw [hr] at h
          cases h
          have := readKnown_weight ih hr
          omega
        | bad => rw [hr] at h; cases h
        | mismatch =>
          rw [hr] at h
          have := readUnknown_weight h2 h3 h
          omega

theorem readFields_weight {one : Rec → Bytes → Option (Rec × Bytes)} (h1 : ∀ m b m' r, one m b = some (m', r) → m'.weight + 15 * r.length ≤ m.weight + 15 * b.length) (fuel : Nat) :
    ∀ {m m' : Rec} {b : Bytes}, readFields one fuel m b = some m' → m'.weight ≤ m.weight + 15 * b.length := by
  induction fuel with
  | zero =>
    intro m m' b h
    cases b with
    | nil => rw [readFields] at h; cases h; simp
    | cons c b => rw [readFields] at h; cases h
  | succ fuel ih =>
    intro m m' b h
    cases b with
    | nil => rw [readFields] at h; cases h; simp
    | cons c b =>
      rw [readFields] at h
      · cases ho : one m (c :: b) with
        | none => rw [ho] at h; cases h
        | some p =>
          obtain ⟨m2, r⟩ := p
          rw [ho] at h
          have h2 := h1 _ _ _ _ ho
          have h3 := ih h
          omega
      · simp

theorem readMessage_weight (d : Nat) : ∀ t m b m', readMessage S d t m b = some m' → m'.weight ≤ m.weight + 15 * b.length := by
  induction d with
  | zero => intro t m b m' h; rw [readMessage] at h; cases h
  | succ d ih =>
    intro t m b m' h
    rw [readMessage] at h
    exact readFields_weight (fun _ _ _ _ h => readField_weight ih h) _ h

/-- What is read weighs at most 15 times what was sent. -/
theorem unmarshal_weight {t : Nat} {b : Bytes} {v : Val} (h : unmarshal S t b = some v) : weight v ≤ 10 + 15 * b.length := by
  unfold unmarshal at h
  rw [Option.map_eq_some_iff] at h
  obtain ⟨m, h1, rfl⟩ := h
  have := readMessage_weight _ _ _ _ _ h1
  have h0 : ({} : Rec).weight = 0 := rfl
  have h2 : m.weight = fweight m.fields + m.unknown.length := rfl
  rw [weight]
  omega

/-! ## Writing -/

theorem encNum_length {k : Kind} {n : Nat} (h : n < k.range) : (encNum k n).length ≤ 10 := by
  have v : ∀ {m : Nat}, m < 2 ^ 65 → (varint m).length ≤ 9 + 1 := fun h => varint_length 9 _ (Nat.lt_of_lt_of_le h (by decide))
  have fx : ∀ j m, (fixed j m).length = j := by
    intro j
    induction j with
    | zero => intro m; rfl
    | succ j ih => intro m; rw [fixed, List.length_cons, ih]
  cases k
  case fixed32 => rw [encNum, fx]; omega
  case fixed64 => rw [encNum, fx]; omega
  case string => exact absurd h (by simp [Kind.range])
  case bytes => exact absurd h (by simp [Kind.range])
  case msg t => exact absurd h (by simp [Kind.range])
  all_goals
    simp only [Kind.range] at h
    rw [encNum]
    · refine v ?_
      try split
      all_goals omega
    all_goals nofun

theorem delimited_le {b : Bytes} (h : b.length < 2 ^ 64) : (delimited b).length ≤ 10 + b.length := by
  have : (varint b.length).length ≤ 9 + 1 := varint_length 9 _ (Nat.lt_of_lt_of_le h (by decide))
  unfold delimited
  rw [List.length_append]
  omega

theorem encNums_length {k : Kind} {l : List Nat} (h : ∀ n ∈ l, n < k.range) : (l.flatMap (encNum k)).length ≤ 10 * l.length := by
  induction l with
  | nil => exact Nat.le_refl _
  | cons n l ih =>
    rw [List.flatMap_cons, List.length_append, List.length_cons]
    have h1 := encNum_length (h n List.mem_cons_self)
    have h2 := ih fun x hx => h x (List.mem_cons_of_mem _ hx)
    omega

theorem encFields_length_of (hS : S.Proper) {d t : Nat} (ih : ∀ k v, Fits S d k v → weight v < 2 ^ 64 → (encVal S k v).length ≤ weight v) :
    ∀ fs : List (Nat × Val), (∀ e ∈ fs, ∃ f ∈ S t, f.num = e.1 ∧ Fits S d f.kind e.2) → fweight fs < 2 ^ 64 → (encFields S t fs).length ≤ fweight fs := by
  intro fs
  induction fs with
  | nil => intro _ _; rw [encFields]; exact Nat.zero_le _
  | cons e r ih2 =>
    intro h hw
    obtain ⟨n, v⟩ := e
    rw [fweight_cons] at hw ⊢
    simp only at hw ⊢
    obtain ⟨f, hf, hn, hv⟩ := h _ List.mem_cons_self
    simp only at hn hv
    subst hn
    rw [encFields, field_iff hS hf]
    simp only [List.length_append]
    have h1 := ih _ _ hv (by omega)
    have h2 := ih2 (fun x hx => h x (List.mem_cons_of_mem _ hx)) (by omega)
    have h3 : (tag f.num f.wireType).length ≤ 9 + 1 := by
      refine varint_length 9 _ ?_
      have ha := (hS.range t f hf).2
      have hb : f.wireType < 8 := by
        unfold Field.wireType
        split
        · decide
        · unfold wireType; split <;> decide
      omega
    omega

theorem encVal_length (hS : S.Proper) (d : Nat) : ∀ k v, Fits S d k v → weight v < 2 ^ 64 → (encVal S k v).length ≤ weight v := by
  have num : ∀ (d : Nat) (k : Kind) (n : Nat), Fits S d k (.num n) → (encVal S k (.num n)).length ≤ weight (.num n) := by
    intro d k n h
    rw [encVal, weight]
    exact encNum_length (by cases d <;> cases k <;> exact h)
  have byt : ∀ (k : Kind) (s : Bytes), weight (.bytes s) < 2 ^ 64 → (encVal S k (.bytes s)).length ≤ weight (.bytes s) := by
    intro k s hw
    rw [weight] at hw ⊢
    rw [encVal]
    exact delimited_le (by omega)
  have nums : ∀ (d : Nat) (k : Kind) (l : List Nat), Fits S d k (.nums l) → weight (.nums l) < 2 ^ 64 → (encVal S k (.nums l)).length ≤ weight (.nums l) := by
    intro d k l h hw
    rw [weight] at hw ⊢
    rw [encVal]
    have h' : ∀ n ∈ l, n < k.range := by cases d <;> cases k <;> exact h.2
    have h1 := encNums_length h'
    have h2 := delimited_le (b := l.flatMap (encNum k)) (by omega)
    omega
  induction d with
  | zero =>
    intro k v h hw
    cases v with
    | num n => exact num _ k n h
    | bytes s => exact byt k s hw
    | nums l => exact nums _ k l h hw
    | msg fs u => cases k <;> exact absurd h (by simp [Fits])
  | succ d ih =>
    intro k v h hw
    cases v with
    | num n => exact num _ k n h
    | bytes s => exact byt k s hw
    | nums l => exact nums _ k l h hw
    | msg fs u =>
      cases k
      case msg t =>
        rw [fits_msg] at h
        rw [weight] at hw ⊢
        rw [encVal]
        have h1 := encFields_length_of hS ih fs (fun e he => by obtain ⟨f, hf, hn, -, hv⟩ := h.1.1 e he; exact ⟨f, hf, hn, hv⟩) (by omega)
        have h2 := delimited_le (b := encFields S t fs ++ u) (by rw [List.length_append]; omega)
        rw [List.length_append] at h2
        omega
      all_goals exact absurd h (by simp [Fits])

theorem encFields_length (hS : S.Proper) {d t : Nat} {fs : List (Nat × Val)} (h : FieldsOk S d t fs) (hw : fweight fs < 2 ^ 64) : (encFields S t fs).length ≤ fweight fs :=
  encFields_length_of hS (encVal_length hS d) fs (fun e he => by obtain ⟨f, hf, hn, -, hv⟩ := h.1 e he; exact ⟨f, hf, hn, hv⟩) hw

end Verif.Pb
