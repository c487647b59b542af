import Verif.Lemmas.Wire
/-!
# Reading and writing messages
-/
namespace Verif.Pb
variable {S : Schema}

theorem wire_eq (f : Field) : f.wireType = f.wire := by
  unfold Field.wireType Field.wire wireType
  cases f with
  | mk num kind card => cases card <;> cases kind <;> simp

theorem wire_lt (f : Field) : f.wire < 8 ∧ f.wire ≠ 4 := by
  rw [← wire_eq]
  unfold Field.wireType wireType
  split
  · decide
  · cases f.kind <;> simp

theorem field_iff (hS : S.Proper) {t : Nat} {f : Field} (h : f ∈ S t) : S.field t f.num = some f := by
  unfold Schema.field
  have hd := hS.differ t
  generalize S t = l at h hd
  induction l with
  | nil => simp at h
  | cons g l ih =>
    rw [List.pairwise_cons] at hd
    rcases List.mem_cons.1 h with rfl | h
    · simp
    · have := hd.1 f h
      rw [List.find?_cons_of_neg (by simpa using this)]
      exact ih h hd.2

theorem field_mem {t n : Nat} {f : Field} (h : S.field t n = some f) : f ∈ S t ∧ f.num = n := by
  unfold Schema.field at h
  exact ⟨List.mem_of_find?_eq_some h, by simpa using List.find?_some h⟩

theorem place_of (hS : S.Proper) {t : Nat} {i : Nat} {f : Field} (h : (S t)[i]? = some f) : S.place t f.num = i := by
  unfold Schema.place
  have hd := hS.differ t
  generalize S t = l at h hd
  induction l generalizing i with
  | nil => simp at h
  | cons g l ih =>
    rw [List.pairwise_cons] at hd
    cases i with
    | zero => simp at h; subst h; simp [List.findIdx_cons]
    | succ i =>
      rw [List.getElem?_cons_succ] at h
      have := hd.1 f (List.mem_of_getElem? h)
      rw [List.findIdx_cons, ih h hd.2]
      simp [this]

/-- A field may follow those of `pre`. -/
structure After (S : Schema) (t : Nat) (pre : List (Nat × Val)) (f : Field) : Prop where
  place : ∀ e ∈ pre, S.place t e.1 ≤ S.place t f.num
  single : f.card ≠ .repeated → ∀ e ∈ pre, clears S t f e.1 = false

theorem insert_end {t : Nat} {pre : List (Nat × Val)} {e : Nat × Val} (h : ∀ x ∈ pre, S.place t x.1 ≤ S.place t e.1) :
    insert S t e pre = pre ++ [e] := by
  induction pre with
  | nil => rfl
  | cons x r ih =>
    rw [insert, if_neg (Nat.not_lt.2 (h x (by simp))), ih fun y hy => h y (by simp [hy])]
    rfl

theorem set_end {t : Nat} {pre : List (Nat × Val)} {f : Field} {v : Val} (h : After S t pre f) (hc : f.card ≠ .repeated) :
    set S t f v pre = pre ++ [(f.num, v)] := by
  unfold set
  have : (pre.filter fun e => !clears S t f e.1) = pre := by
    rw [List.filter_eq_self]
    intro e he; rw [h.single hc e he]; rfl
  rw [this]
  exact insert_end h.place

theorem store_end {t : Nat} {pre : List (Nat × Val)} {f : Field} {v : Val} {z : Bool} (h : After S t pre f) (hz : f.card = .implicit → z = false) :
    store S t f v z pre = pre ++ [(f.num, v)] := by
  unfold store
  cases hc : f.card with
  | repeated => exact insert_end h.place
  | implicit => rw [hz hc]; exact set_end h (by rw [hc]; simp)
  | optional => exact set_end h (by rw [hc]; simp)
  | packed => exact set_end h (by rw [hc]; simp)
  | oneof g => exact set_end h (by rw [hc]; simp)

theorem get_end {t : Nat} {pre : List (Nat × Val)} {f : Field} (h : After S t pre f) (hc : f.card ≠ .repeated) : get f.num pre = none := by
  unfold get
  rw [Option.map_eq_none_iff, List.find?_eq_none]
  intro e he he'
  have := h.single hc e he
  have e1 : e.1 = f.num := by simpa using he'
  unfold clears at this
  rw [e1] at this; simp at this

/-- The value of a field that the type has is read. -/
theorem readKnown_ok (hS : S.Proper) {d t : Nat} (ih : ∀ t fs u b, Message S d t (.msg fs u) b → readMessage S d t {} b = some ⟨fs, u⟩)
    {f : Field} {v : Val} {b : Bytes} (hf : f ∈ S t) (ht : f.Takes v) (hv : Value S d f.kind v b) {pre : List (Nat × Val)} {u : Bytes}
    (ha : After S t pre f) (r : Bytes) :
    readKnown S (readMessage S d) t f f.wire ⟨pre, u⟩ (b ++ r) = .ok (⟨pre ++ [(f.num, v)], u⟩, r) := by
  have hstore : ∀ (z : Bool), (z = true → v.Zero) → store S t f v z pre = pre ++ [(f.num, v)] := fun z hz =>
    store_end ha fun hc => by
      have := ht.zero hc
      cases z
      · rfl
      · exact absurd (hz rfl) this
  cases v with
  | num n =>
    have hn : Number f.kind n b := by cases d <;> exact hv
    have hp : f.card ≠ .packed := by
      intro h; obtain ⟨l, e⟩ := ht.packed.1 h; exact Val.noConfusion e
    have hw : f.wire = wireType f.kind := by rw [← wire_eq, Field.wireType, if_neg hp]
    have hs := hstore (n == 0) (by intro h; exact beq_iff_eq.1 h)
    have hr := readNum_ok hn r
    have hlt := hn.1
    unfold readKnown
    cases hk : f.kind <;> simp only [hk] at hw hr hlt ⊢
    case string => exact absurd hlt (Nat.not_lt_zero _)
    case bytes => exact absurd hlt (Nat.not_lt_zero _)
    case msg t => exact absurd hlt (Nat.not_lt_zero _)
    all_goals
      rw [if_neg hp, if_neg (by rw [hw]; exact fun h => h rfl)]
      simp only [hr, hs]
  | bytes s =>
    have hp : f.card ≠ .packed := by
      intro h; obtain ⟨l, e⟩ := ht.packed.1 h; exact Val.noConfusion e
    have hw : f.wire = wireType f.kind := by rw [← wire_eq, Field.wireType, if_neg hp]
    have hs := hstore s.isEmpty (by intro h; exact List.isEmpty_iff.1 h)
    unfold readKnown
    cases hk : f.kind <;> simp only [hk] at hw hv ⊢
    case string =>
      have hv' : Utf8 s ∧ Delimited s b := by cases d <;> exact hv
      rw [if_neg (by rw [hw]; decide), readBytes_ok hv'.2]
      simp only [(validUtf8_iff s).2 hv'.1, if_true, hs]
    case bytes =>
      have hv' : Delimited s b := by cases d <;> exact hv
      rw [if_neg (by rw [hw]; decide), readBytes_ok hv']
      simp only [hs]
    all_goals exact absurd hv (by cases d <;> exact fun h => h)
  | nums l =>
    have hp : f.card = .packed := ht.packed.2 ⟨l, rfl⟩
    have hw : f.wire = 2 := by rw [← wire_eq, Field.wireType, if_pos hp]
    obtain ⟨h1, h2, h3⟩ := hS.packed t f hf hp
    have hv' : l ≠ [] ∧ ∃ s, Numbers f.kind l s ∧ Delimited s b := by
      cases hk : f.kind <;> simp only [hk] at hv <;> cases d <;> exact hv
    obtain ⟨hl, s, hn, hb⟩ := hv'
    have hr := readNums_ok hn s.length (numbers_length hn)
    have hadd : addNums S t f l pre = pre ++ [(f.num, .nums l)] := by
      have : packedOf f.num pre = [] := by
        unfold packedOf; rw [get_end ha (by rw [hp]; simp)]
      unfold addNums
      rw [this, List.nil_append, if_neg hl]
      exact set_end ha (by rw [hp]; simp)
    unfold readKnown
    cases hk : f.kind <;> simp only [hk] at h1 h2 h3 hr ⊢
    case string => exact absurd rfl h1
    case bytes => exact absurd rfl h2
    case msg t => exact absurd rfl (h3 t)
    all_goals
      rw [if_pos hp, if_pos hw, readBytes_ok hb]
      simp only [hr, hadd]
  | msg fs w =>
    have hp : f.card ≠ .packed := by
      intro h; obtain ⟨l, e⟩ := ht.packed.1 h; exact Val.noConfusion e
    have hw : f.wire = wireType f.kind := by rw [← wire_eq, Field.wireType, if_neg hp]
    have hs := hstore false (by simp)
    unfold readKnown
    cases hk : f.kind <;> simp only [hk] at hw hv ⊢
    case msg t' =>
      cases d with
      | zero => exact absurd hv (fun h => h)
      | succ d =>
        obtain ⟨x, h1, h2⟩ := hv
        have hm := ih t' fs w (x ++ w) ⟨x, rfl, h1⟩
        have e : (if f.card = .repeated then {} else messageOf f.num pre) = ({} : Rec) := by
          split
          · rfl
          · rename_i hc
            unfold messageOf; rw [get_end ha hc]
        rw [if_neg (by rw [hw, wireType]; exact fun h => h rfl), readBytes_ok h2]
        simp only [e, hm, hs]
    all_goals exact absurd hv (by cases d <;> exact fun h => h)

theorem readTag_ok {l : Bytes} {num wt : Nat} (h1 : 1 ≤ num) (h2 : num < 2 ^ 29) (hw : wt < 8) (h : Varint l (num * 8 + wt)) (r : Bytes) :
    readTag (l ++ r) = some (num, wt, r) := by
  unfold readTag
  rw [readVarint_ok h]
  have e1 : (num * 8 + wt) / 8 = num := by omega
  have e2 : (num * 8 + wt) % 8 = wt := by omega
  simp only [e1, e2]
  rw [if_neg (by omega)]

theorem varint_pos {l : Bytes} {n : Nat} (h : Varint l n) : 0 < l.length := List.length_pos_iff.2 (base_ne h.1)

/-- One turn of the loop. -/
theorem readFields_step {one : Rec → Bytes → Option (Rec × Bytes)} {m m' : Rec} {b r : Bytes} (hb : b ≠ []) (h : one m b = some (m', r)) (fuel : Nat) :
    readFields one (fuel + 1) m b = readFields one fuel m' r := by
  obtain ⟨c, b', rfl⟩ := List.exists_cons_of_ne_nil hb
  rw [readFields, h]
  simp

theorem readFields_nil (one : Rec → Bytes → Option (Rec × Bytes)) (fuel : Nat) (m : Rec) : readFields one fuel m [] = some m := by
  cases fuel <;> rfl

theorem after_of (hS : S.Proper) {t : Nat} {pre fs : List (Nat × Val)} {f : Field} {v : Val} (hf : f ∈ S t)
    (h : InOrder S t (pre ++ (f.num, v) :: fs)) : After S t pre f := by
  have h' := (List.pairwise_append.1 h).2.2
  constructor
  · intro e he
    obtain ⟨i, j, f1, f2, h1, h2, h3, h4, h5, -⟩ := h' e he (f.num, v) (by simp)
    have h4 : f2.num = f.num := h4
    rw [← h3, ← h4, place_of hS h1, place_of hS h2]
    omega
  · intro hc e he
    obtain ⟨i, j, f1, f2, h1, h2, h3, h4, h5, h6⟩ := h' e he (f.num, v) (by simp)
    have e2 : f2 = f := by
      have a := field_iff hS (List.mem_of_getElem? h2)
      rw [h4, field_iff hS hf] at a
      exact (Option.some.inj a).symm
    subst e2
    have hne : e.1 ≠ f2.num := by
      intro e3
      have : i = j := by rw [← place_of hS h1, ← place_of hS h2, h3, e3]
      subst this
      rw [h1] at h2
      cases h2
      rcases h5 with h5 | h5
      · omega
      · exact hc h5.2
    unfold clears
    rw [← h3, field_iff hS (List.mem_of_getElem? h1)]
    rw [h3]
    have : (e.1 == f2.num) = false := by simpa using hne
    rw [this]
    cases hcd : f2.card with
    | oneof g =>
      have : f1.card ≠ .oneof g := fun h => (h6 g h) hcd
      simpa using this
    | _ => rfl

/-- The fields that the type has are read. -/
theorem readFields_known (hS : S.Proper) {d t : Nat} (ih : ∀ t fs u b, Message S d t (.msg fs u) b → readMessage S d t {} b = some ⟨fs, u⟩)
    {fs : List (Nat × Val)} {b : Bytes} (h : Fields S (Value S d) t fs b) : ∀ (pre : List (Nat × Val)) (u r : Bytes) (fuel : Nat),
    InOrder S t (pre ++ fs) → b.length + r.length ≤ fuel → ∃ fuel', r.length ≤ fuel' ∧
      readFields (readField S (readMessage S d) t) fuel ⟨pre, u⟩ (b ++ r) = readFields (readField S (readMessage S d) t) fuel' ⟨pre ++ fs, u⟩ r := by
  induction h with
  | nil => intro pre u r fuel _ hf; exact ⟨fuel, by simpa using hf, by simp⟩
  | @cons f v fs l b x hm ht hl hv _ ih2 =>
    intro pre u r fuel ho hfuel
    have hp := varint_pos hl
    have ha := after_of hS hm ho
    obtain ⟨hr1, hr2⟩ := hS.range t f hm
    simp only [List.length_append] at hfuel
    obtain ⟨fuel, rfl⟩ := Nat.exists_eq_add_of_lt (show 0 < fuel by omega)
    rw [Nat.zero_add]
    have step : readField S (readMessage S d) t ⟨pre, u⟩ (l ++ b ++ x ++ r) = some (⟨pre ++ [(f.num, v)], u⟩, x ++ r) := by
      unfold readField
      rw [List.append_assoc, List.append_assoc, readTag_ok hr1 hr2 (wire_lt f).1 hl]
      simp only
      rw [if_neg (wire_lt f).2, field_iff hS hm]
      simp only
      rw [readKnown_ok hS ih hm ht hv ha]
    rw [readFields_step (by intro e; rw [e] at step; simp [readField, readTag, readVarint, varintFrom] at step) step]
    obtain ⟨fuel', h1, h2⟩ := ih2 (pre ++ [(f.num, v)]) u r fuel (by simpa using ho) (by omega)
    exact ⟨fuel', h1, by rw [h2]; simp⟩

theorem raw_lt {d num wt : Nat} {b : Bytes} (h : Raw d num wt b) : wt < 8 ∧ wt ≠ 4 := by
  match wt with
  | 0 => decide
  | 1 => decide
  | 2 => decide
  | 3 => decide
  | 4 => cases d <;> exact absurd h fun h => h
  | 5 => decide
  | n + 6 => cases d <;> exact absurd h fun h => h

theorem innerTag_ok {l : Bytes} {num wt : Nat} (h1 : 1 ≤ num) (h2 : num < 2 ^ 31) (hw : wt < 8) (h : Varint l (num * 8 + wt)) (r : Bytes) :
    innerTag (l ++ r) = some (num, wt, r) := by
  unfold innerTag
  rw [readVarint_ok h]
  have e1 : (num * 8 + wt) / 8 = num := by omega
  have e2 : (num * 8 + wt) % 8 = wt := by omega
  simp only [e1, e2]
  rw [if_neg (by omega)]

theorem group_ok {d num : Nat} (hn : 1 ≤ num) (hn2 : num < 2 ^ 31)
    (ih : ∀ num wt b, 1 ≤ num → num < 2 ^ 31 → Raw d num wt b → ∀ fuel r, 2 * b.length + 1 ≤ fuel → skip fuel d num wt (b ++ r) = some r)
    {b : Bytes} (h : Items (Raw d) num b) : ∀ (fuel : Nat) (r : Bytes), 2 * b.length ≤ fuel → skip.group fuel d num (b ++ r) = some r := by
  induction h with
  | @stop l hl =>
    intro fuel r hf
    have hp := varint_pos hl
    obtain ⟨fuel, rfl⟩ := Nat.exists_eq_add_of_lt (show 0 < fuel by omega)
    rw [Nat.zero_add, skip.group.eq_def]
    simp only [innerTag_ok hn hn2 (by decide) hl]
    rw [if_pos trivial, if_pos trivial]
  | @cons n wt l b x h1 h2 hl hr _ ih2 =>
    intro fuel r hf
    have hp := varint_pos hl
    simp only [List.length_append] at hf
    obtain ⟨fuel, rfl⟩ := Nat.exists_eq_add_of_lt (show 0 < fuel by omega)
    rw [Nat.zero_add, skip.group.eq_def]
    have e : l ++ b ++ x ++ r = l ++ (b ++ (x ++ r)) := by simp
    simp only [e, innerTag_ok h1 h2 (raw_lt hr).1 hl]
    rw [if_neg (raw_lt hr).2, ih n wt b h1 h2 hr fuel _ (by omega)]
    exact ih2 fuel r (by omega)

theorem skip_ok (d : Nat) : ∀ num wt b, 1 ≤ num → num < 2 ^ 31 → Raw d num wt b → ∀ fuel r, 2 * b.length + 1 ≤ fuel →
    skip fuel d num wt (b ++ r) = some r := by
  induction d with
  | zero =>
    intro num wt b h1 h2 h fuel r hf
    obtain ⟨fuel, rfl⟩ := Nat.exists_eq_add_of_lt (show 0 < fuel by omega)
    rw [Nat.zero_add, skip.eq_def]
    match wt, h with
    | 0, ⟨n, h⟩ => simp only [readVarint_ok h]; rw [if_pos trivial]; rfl
    | 1, h =>
      have h : b.length = 8 := h
      simp only; rw [if_neg (by decide), if_pos trivial]; unfold readFixed
      rw [if_neg (by simp; omega)]
      simp [← h]
    | 2, ⟨s, h⟩ => simp only [readBytes_ok h]; rw [if_neg (by decide), if_neg (by decide), if_pos trivial]; rfl
    | 5, h =>
      have h : b.length = 4 := h
      simp only; rw [if_neg (by decide), if_neg (by decide), if_neg (by decide), if_pos trivial]; unfold readFixed
      rw [if_neg (by simp; omega)]
      simp [← h]
  | succ d ih =>
    intro num wt b h1 h2 h fuel r hf
    obtain ⟨fuel, rfl⟩ := Nat.exists_eq_add_of_lt (show 0 < fuel by omega)
    rw [Nat.zero_add, skip.eq_def]
    match wt, h with
    | 0, ⟨n, h⟩ => simp only [readVarint_ok h]; rw [if_pos trivial]; rfl
    | 1, h =>
      have h : b.length = 8 := h
      simp only; rw [if_neg (by decide), if_pos trivial]; unfold readFixed
      rw [if_neg (by simp; omega)]
      simp [← h]
    | 2, ⟨s, h⟩ => simp only [readBytes_ok h]; rw [if_neg (by decide), if_neg (by decide), if_pos trivial]; rfl
    | 5, h =>
      have h : b.length = 4 := h
      simp only; rw [if_neg (by decide), if_neg (by decide), if_neg (by decide), if_pos trivial]; unfold readFixed
      rw [if_neg (by simp; omega)]
      simp [← h]
    | 3, h =>
      simp only; rw [if_neg (by decide), if_neg (by decide), if_neg (by decide), if_neg (by decide), if_pos trivial]
      exact group_ok h1 h2 ih h fuel r (by omega)

theorem readUnknown_ok {num wt : Nat} {l b : Bytes} (h1 : 1 ≤ num) (h2 : num < 2 ^ 29) (hl : Shortest l (num * 8 + wt)) (h : Raw 10001 num wt b)
    (m : Rec) (r : Bytes) : readUnknown num wt m (b ++ r) = some ({ m with unknown := m.unknown ++ (l ++ b) }, r) := by
  unfold readUnknown
  rw [show recursionLimit + 1 = 10001 from rfl, skip_ok 10001 num wt b h1 (by omega) h _ r (by rw [List.length_append]; omega)]
  simp only
  rw [(shortest_iff hl.1.2.2).1 hl]
  simp [tag]

theorem readKnown_mismatch {t : Nat} {f : Field} {wt : Nat} (hw : wt ≠ f.wire) (hw' : f.card = .packed → wt ≠ { f with card := .repeated : Field }.wire)
    (sub : Nat → Rec → Bytes → Option Rec) (m : Rec) (b : Bytes) (hp : f.card = .packed → f.kind ≠ .string ∧ f.kind ≠ .bytes ∧ ∀ t', f.kind ≠ .msg t') :
    readKnown S sub t f wt m b = .mismatch := by
  rw [← wire_eq] at hw hw'
  unfold Field.wireType at hw hw'
  simp only [reduceCtorEq, if_false] at hw'
  unfold readKnown
  by_cases hc : f.card = .packed
  · rw [if_pos hc] at hw
    have := hw' hc
    obtain ⟨h1, h2, h3⟩ := hp hc
    cases hk : f.kind <;> simp only [hk] at this h1 h2 h3 ⊢
    case string => exact absurd rfl h1
    case bytes => exact absurd rfl h2
    case msg t => exact absurd rfl (h3 t)
    all_goals rw [if_pos hc, if_neg hw, if_neg this]
  · rw [if_neg hc] at hw
    cases hk : f.kind <;> simp only [hk] at hw ⊢
    case string => rw [if_pos (by simpa [wireType] using hw)]
    case bytes => rw [if_pos (by simpa [wireType] using hw)]
    case msg t => rw [if_pos (by simpa [wireType] using hw)]
    all_goals rw [if_neg hc, if_pos hw]

/-- The fields that the type does not have are kept. -/
theorem readFields_unknown (hS : S.Proper) {d t : Nat} {w : Bytes} (h : Unknown S t w) : ∀ (fs : List (Nat × Val)) (u : Bytes) (fuel : Nat),
    w.length ≤ fuel → readFields (readField S (readMessage S d) t) fuel ⟨fs, u⟩ w = some ⟨fs, u ++ w⟩ := by
  induction h with
  | nil => intro fs u fuel _; rw [readFields_nil, List.append_nil]
  | @cons num wt l b r h1 h2 hl hn hraw _ ih =>
    intro fs u fuel hfuel
    have hp := varint_pos hl.1
    simp only [List.length_append] at hfuel
    obtain ⟨fuel, rfl⟩ := Nat.exists_eq_add_of_lt (show 0 < fuel by omega)
    rw [Nat.zero_add]
    have step : readField S (readMessage S d) t ⟨fs, u⟩ (l ++ b ++ r) = some (⟨fs, u ++ (l ++ b)⟩, r) := by
      unfold readField
      rw [List.append_assoc, readTag_ok h1 h2 (raw_lt hraw).1 hl.1]
      simp only
      rw [if_neg (raw_lt hraw).2]
      cases hf : S.field t num with
      | none => simp only; rw [readUnknown_ok h1 h2 hl hraw]
      | some f =>
        obtain ⟨hm, he⟩ := field_mem hf
        obtain ⟨ha, hb⟩ := hn f hm he
        simp only
        rw [readKnown_mismatch ha hb _ _ _ (hS.packed t f hm)]
        simp only
        rw [readUnknown_ok h1 h2 hl hraw]
    rw [readFields_step (by intro e; rw [e] at step; simp [readField, readTag, readVarint, varintFrom] at step) step]
    rw [ih _ _ _ (by omega)]
    simp

/-- Every spelling of a message is read as the message. -/
theorem readMessage_ok (hS : S.Proper) (d : Nat) : ∀ t fs u b, Message S d t (.msg fs u) b → readMessage S d t {} b = some ⟨fs, u⟩ := by
  induction d with
  | zero => intro t fs u b h; exact absurd h fun h => h
  | succ d ih =>
    intro t fs u b h
    obtain ⟨x, rfl, h1, h2, h3⟩ := h
    rw [readMessage]
    obtain ⟨fuel', h4, h5⟩ := readFields_known hS ih h1 [] [] u (x ++ u).length (by simpa using h2) (by simp)
    rw [show ({} : Rec) = ⟨[], []⟩ from rfl, h5, readFields_unknown hS h3 _ _ _ h4]
    simp

/-! ## Writing -/

theorem delimited_ok {s : Bytes} (h : s.length < 2 ^ 64) : Delimited s (delimited s) := ⟨_, varint_ok h, rfl⟩

theorem delimited_length (s : Bytes) : s.length ≤ (delimited s).length := by unfold delimited; simp

theorem encFields_ok (hS : S.Proper) {d t : Nat} (ih : ∀ k v, Fits S d k v → (encVal S k v).length < 2 ^ 64 → Value S d k v (encVal S k v))
    {fs : List (Nat × Val)} (h : ∀ e ∈ fs, ∃ f ∈ S t, f.num = e.1 ∧ f.Takes e.2 ∧ Fits S d f.kind e.2) (hl : (encFields S t fs).length < 2 ^ 64) :
    Fields S (Value S d) t fs (encFields S t fs) := by
  induction fs with
  | nil => rw [encFields]; exact .nil
  | cons e fs ih2 =>
    obtain ⟨n, v⟩ := e
    obtain ⟨f, hf, rfl, ht, hv⟩ := h (n, v) (by simp)
    rw [encFields, field_iff hS hf] at hl ⊢
    simp only [List.length_append] at hl
    obtain ⟨h1, h2⟩ := hS.range t f hf
    refine .cons hf ht ?_ (ih _ _ hv (by omega)) (ih2 (fun e he => h e (by simp [he])) (by omega))
    rw [wire_eq]
    have := (wire_lt f).1
    exact varint_ok (by omega)

theorem encVal_ok (hS : S.Proper) (d : Nat) : ∀ k v, Fits S d k v → (encVal S k v).length < 2 ^ 64 → Value S d k v (encVal S k v) := by
  induction d with
  | zero =>
    intro k v h hl
    cases v with
    | num n => rw [encVal] at hl ⊢; exact encNum_ok h
    | bytes s =>
      rw [encVal] at hl ⊢
      have := delimited_length s
      cases k <;> try exact absurd h fun h => h
      · exact ⟨h, delimited_ok (by omega)⟩
      · exact delimited_ok (by omega)
    | nums l =>
      have h' : l ≠ [] ∧ ∀ n ∈ l, n < k.range := by cases k <;> exact h
      rw [encVal] at hl ⊢
      have := delimited_length (l.flatMap (encNum k))
      have : l ≠ [] ∧ ∃ s, Numbers k l s ∧ Delimited s (delimited (l.flatMap (encNum k))) :=
        ⟨h'.1, _, encNums_ok h'.2, delimited_ok (by omega)⟩
      cases k <;> exact this
    | msg fs u => cases k <;> exact absurd h fun h => h
  | succ d ih =>
    intro k v h hl
    cases v with
    | num n => rw [encVal] at hl ⊢; exact encNum_ok h
    | bytes s =>
      rw [encVal] at hl ⊢
      have := delimited_length s
      cases k <;> try exact absurd h fun h => h
      · exact ⟨h, delimited_ok (by omega)⟩
      · exact delimited_ok (by omega)
    | nums l =>
      have h' : l ≠ [] ∧ ∀ n ∈ l, n < k.range := by cases k <;> exact h
      rw [encVal] at hl ⊢
      have := delimited_length (l.flatMap (encNum k))
      have : l ≠ [] ∧ ∃ s, Numbers k l s ∧ Delimited s (delimited (l.flatMap (encNum k))) :=
        ⟨h'.1, _, encNums_ok h'.2, delimited_ok (by omega)⟩
      cases k <;> exact this
    | msg fs u =>
      cases k <;> try exact absurd h fun h => h
      rename_i t
      obtain ⟨h1, h2, h3⟩ := h
      rw [encVal] at hl ⊢
      have := delimited_length (encFields S t fs ++ u)
      have hl2 : (encFields S t fs ++ u).length < 2 ^ 64 := by omega
      refine ⟨_, ⟨encFields_ok hS ih h1 (by rw [List.length_append] at hl2; omega), h2, h3⟩, delimited_ok hl2⟩

/-! ## Strings -/

mutual
theorem stringsOk_iff (hS : S.Proper) : ∀ (k : Kind) (v : Val), stringsOk S k v = true ↔ ∀ s, HasString S k v s → Utf8 s
  | k, .num n => by
    have : stringsOk S k (.num n) = true := by cases k <;> rfl
    exact ⟨fun _ s h => (nomatch h), fun _ => this⟩
  | k, .nums l => by
    have : stringsOk S k (.nums l) = true := by cases k <;> rfl
    exact ⟨fun _ s h => (nomatch h), fun _ => this⟩
  | k, .bytes b => by
    by_cases hk : k = .string
    · subst hk
      rw [stringsOk, validUtf8_iff]
      exact ⟨fun h s hs => by cases hs; exact h, fun h => h b (.here b)⟩
    · have : stringsOk S k (.bytes b) = true := by
        cases k <;> first | rfl | exact absurd rfl hk
      exact ⟨fun _ s h => by cases h; exact absurd rfl hk, fun _ => this⟩
  | .msg t, .msg fs u => by
    rw [stringsOk, fieldsOk_iff hS t fs]
    constructor
    · intro h s hs
      cases hs with
      | inside he hf hn hs => exact h _ he _ hf hn s hs
    · intro h e he f hf hn s hs
      exact h s (.inside he hf hn hs)
  | .bool, .msg fs u => ⟨fun _ s h => (nomatch h), fun _ => rfl⟩
  | .enum, .msg fs u => ⟨fun _ s h => (nomatch h), fun _ => rfl⟩
  | .int64, .msg fs u => ⟨fun _ s h => (nomatch h), fun _ => rfl⟩
  | .uint32, .msg fs u => ⟨fun _ s h => (nomatch h), fun _ => rfl⟩
  | .uint64, .msg fs u => ⟨fun _ s h => (nomatch h), fun _ => rfl⟩
  | .sint32, .msg fs u => ⟨fun _ s h => (nomatch h), fun _ => rfl⟩
  | .fixed32, .msg fs u => ⟨fun _ s h => (nomatch h), fun _ => rfl⟩
  | .fixed64, .msg fs u => ⟨fun _ s h => (nomatch h), fun _ => rfl⟩
  | .string, .msg fs u => ⟨fun _ s h => (nomatch h), fun _ => rfl⟩
  | .bytes, .msg fs u => ⟨fun _ s h => (nomatch h), fun _ => rfl⟩
theorem fieldsOk_iff (hS : S.Proper) (t : Nat) : ∀ fs : List (Nat × Val), fieldsOk S t fs = true ↔
    ∀ e ∈ fs, ∀ f ∈ S t, f.num = e.1 → ∀ s, HasString S f.kind e.2 s → Utf8 s
  | [] => by rw [fieldsOk]; simp
  | (n, v) :: r => by
    rw [fieldsOk, Bool.and_eq_true, fieldsOk_iff hS t r]
    constructor
    · rintro ⟨h1, h2⟩ e he f hf hn s hs
      rcases List.mem_cons.1 he with rfl | he
      · simp only at hn
        rw [← hn, field_iff hS hf] at h1
        exact (stringsOk_iff hS f.kind v).1 h1 s hs
      · exact h2 e he f hf hn s hs
    · intro h
      refine ⟨?_, fun e he => h e (by simp [he])⟩
      cases hf : S.field t n with
      | none => rfl
      | some f =>
        obtain ⟨hm, hn⟩ := field_mem hf
        exact (stringsOk_iff hS f.kind v).2 fun s hs => h (n, v) (by simp) f hm hn s hs
end

end Verif.Pb
