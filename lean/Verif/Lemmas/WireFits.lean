import Verif.Lemmas.WireMsg
/-!
# What is read is a message of its type
-/
namespace Verif.Pb
variable {S : Schema}

theorem varintFrom_inv (b : Bytes) : ∀ (i n : Nat) (r : Bytes), i ≤ 9 → varintFrom i b = some (n, r) →
    ∃ x, b = x ++ r ∧ Base128 x n ∧ x.length ≤ 10 - i ∧ n < 2 ^ (64 - 7 * i) := by
  induction b with
  | nil => intro i n r _ h; simp [varintFrom] at h
  | cons c b ih =>
    intro i n r hi h
    rw [varintFrom] at h
    split at h
    · rename_i h9
      subst h9
      split at h
      · rename_i h2
        cases h
        exact ⟨[c], rfl, .last c (by omega), by simp, by simpa using h2⟩
      · cases h
    · rename_i h9
      split at h
      · rename_i hc
        cases h
        refine ⟨[c], rfl, .last c hc, by simp; omega, ?_⟩
        have : 2 ^ 7 ≤ 2 ^ (64 - 7 * i) := Nat.pow_le_pow_right (by decide) (by omega)
        omega
      · rename_i hc
        cases hv : varintFrom (i + 1) b with
        | none => rw [hv] at h; cases h
        | some p =>
          obtain ⟨v, r'⟩ := p
          rw [hv] at h
          cases h
          obtain ⟨x, h1, h2, h3, h4⟩ := ih (i + 1) v r (by omega) hv
          refine ⟨c :: x, by rw [h1]; rfl, .more c (by omega) h2, by simp; omega, ?_⟩
          have e : 2 ^ (64 - 7 * i) = 128 * 2 ^ (64 - 7 * (i + 1)) := by
            rw [show 64 - 7 * i = 7 + (64 - 7 * (i + 1)) by omega, Nat.pow_add]
          rw [e]
          have := c.toNat_lt
          generalize 2 ^ (64 - 7 * (i + 1)) = q at *
          omega

theorem readVarint_inv {b r : Bytes} {n : Nat} (h : readVarint b = some (n, r)) : ∃ x, b = x ++ r ∧ Varint x n := by
  obtain ⟨x, h1, h2, h3, h4⟩ := varintFrom_inv b 0 n r (by omega) h
  exact ⟨x, h1, h2, by simpa using h3, by simpa using h4⟩

theorem readBytes_inv {b s r : Bytes} (h : readBytes b = some (s, r)) : ∃ x, b = x ++ r ∧ Delimited s x := by
  unfold readBytes at h
  cases hv : readVarint b with
  | none => rw [hv] at h; cases h
  | some p =>
    obtain ⟨n, y⟩ := p
    rw [hv] at h
    simp only at h
    split at h
    · cases h
    · rename_i hn
      cases h
      obtain ⟨x, h1, h2⟩ := readVarint_inv hv
      refine ⟨x ++ y.take n, by rw [h1]; simp, x, ?_, rfl⟩
      rw [List.length_take, Nat.min_eq_left (by omega)]
      exact h2

theorem littleEndian_lt (b : Bytes) : littleEndian b < 256 ^ b.length := by
  induction b with
  | nil => simp [littleEndian]
  | cons c b ih =>
    rw [littleEndian, List.length_cons, Nat.pow_succ]
    have := c.toNat_lt
    generalize 256 ^ b.length = q at *
    omega

theorem readFixed_inv {k n : Nat} {b r : Bytes} (h : readFixed k b = some (n, r)) : (∃ x, b = x ++ r ∧ x.length = k) ∧ n < 256 ^ k := by
  unfold readFixed at h
  split at h
  · cases h
  · rename_i hl
    cases h
    have e : (b.take k).length = k := by rw [List.length_take]; omega
    refine ⟨⟨b.take k, by simp, e⟩, ?_⟩
    have := littleEndian_lt (b.take k)
    rwa [e] at this

theorem readNum_inv {k : Kind} {n : Nat} {b r : Bytes} (hk : k ≠ .string ∧ k ≠ .bytes ∧ ∀ t, k ≠ .msg t) (h : readNum k b = some (n, r)) :
    n < k.range := by
  have hv : ∀ {m : Nat} {y : Bytes}, readVarint b = some (m, y) → m < 2 ^ 64 := fun h => by
    obtain ⟨x, -, h⟩ := readVarint_inv h; exact h.2.2
  obtain ⟨h1, h2, h3⟩ := hk
  cases k
  case string => exact absurd rfl h1
  case bytes => exact absurd rfl h2
  case msg t => exact absurd rfl (h3 t)
  case int64 => exact hv h
  case uint64 => exact hv h
  case fixed32 => exact Nat.lt_of_lt_of_le (readFixed_inv h).2 (by decide)
  case fixed64 => exact Nat.lt_of_lt_of_le (readFixed_inv h).2 (by decide)
  all_goals
    rw [readNum] at h
    cases hr : readVarint b with
    | none => rw [hr] at h; cases h
    | some p =>
      rw [hr] at h
      simp only [Option.map_some, Option.some.injEq, Prod.mk.injEq] at h
      rw [← h.1]
      show _ < _
      simp only [Kind.range]
      try split
      all_goals omega

theorem readNums_inv {k : Kind} (hk : k ≠ .string ∧ k ≠ .bytes ∧ ∀ t, k ≠ .msg t) (fuel : Nat) : ∀ {b : Bytes} {l : List Nat},
    readNums k fuel b = some l → ∀ n ∈ l, n < k.range := by
  induction fuel with
  | zero =>
    intro b l h
    cases b with
    | nil => rw [readNums] at h; cases h; simp
    | cons c b => rw [readNums] at h; cases h
  | succ fuel ih =>
    intro b l h
    cases b with
    | nil => rw [readNums] at h; cases h; simp
    | cons c b =>
      rw [readNums] at h
      · cases hn : readNum k (c :: b) with
        | none => rw [hn] at h; cases h
        | some p =>
          obtain ⟨n, r⟩ := p
          rw [hn] at h
          simp only at h
          cases hr : readNums k fuel r with
          | none => rw [hr] at h; cases h
          | some l' =>
            rw [hr] at h
            cases h
            intro m hm
            rcases List.mem_cons.1 hm with rfl | hm
            · exact readNum_inv hk hn
            · exact ih hr m hm
      · simp

theorem innerTag_inv {b r : Bytes} {n w : Nat} (h : innerTag b = some (n, w, r)) :
    ∃ l, b = l ++ r ∧ Varint l (n * 8 + w) ∧ 1 ≤ n ∧ n < 2 ^ 31 ∧ w < 8 := by
  unfold innerTag at h
  cases hv : readVarint b with
  | none => rw [hv] at h; cases h
  | some p =>
    obtain ⟨m, y⟩ := p
    rw [hv] at h
    simp only at h
    split at h
    · cases h
    · rename_i hm
      cases h
      obtain ⟨x, h1, h2⟩ := readVarint_inv hv
      refine ⟨x, h1, ?_, by omega, by omega, by omega⟩
      rwa [show m / 8 * 8 + m % 8 = m by omega]

theorem readTag_inv {b r : Bytes} {n w : Nat} (h : readTag b = some (n, w, r)) :
    ∃ l, b = l ++ r ∧ Varint l (n * 8 + w) ∧ 1 ≤ n ∧ n < 2 ^ 29 ∧ w < 8 := by
  unfold readTag at h
  cases hv : readVarint b with
  | none => rw [hv] at h; cases h
  | some p =>
    obtain ⟨m, y⟩ := p
    rw [hv] at h
    simp only at h
    split at h
    · cases h
    · rename_i hm
      cases h
      obtain ⟨x, h1, h2⟩ := readVarint_inv hv
      refine ⟨x, h1, ?_, by omega, by omega, by omega⟩
      rwa [show m / 8 * 8 + m % 8 = m by omega]

theorem group_inv {d num : Nat} (ih : ∀ fuel num wt b r, skip fuel d num wt b = some r → ∃ x, b = x ++ r ∧ Raw d num wt x) (fuel : Nat) :
    ∀ (b r : Bytes), skip.group fuel d num b = some r → ∃ x, b = x ++ r ∧ Items (Raw d) num x := by
  induction fuel with
  | zero => intro b r h; rw [skip.group.eq_def] at h; cases h
  | succ fuel ih2 =>
    intro b r h
    rw [skip.group.eq_def] at h
    simp only at h
    cases ht : innerTag b with
    | none => rw [ht] at h; cases h
    | some p =>
      obtain ⟨n, w, y⟩ := p
      rw [ht] at h
      simp only at h
      obtain ⟨l, e1, hl, h1, h2, h3⟩ := innerTag_inv ht
      split at h
      · rename_i hw
        split at h
        · rename_i hn
          cases h
          subst hw hn
          exact ⟨l, e1, .stop hl⟩
        · cases h
      · cases hs : skip fuel d n w y with
        | none => rw [hs] at h; cases h
        | some r' =>
          rw [hs] at h
          simp only at h
          obtain ⟨x1, e2, hr⟩ := ih fuel n w y r' hs
          obtain ⟨x2, e3, hi⟩ := ih2 r' r h
          exact ⟨l ++ x1 ++ x2, by rw [e1, e2, e3]; simp, .cons h1 h2 hl hr hi⟩

theorem skip_inv (d : Nat) : ∀ fuel num wt b r, skip fuel d num wt b = some r → ∃ x, b = x ++ r ∧ Raw d num wt x := by
  induction d with
  | zero =>
    intro fuel num wt b r h
    cases fuel with
    | zero => rw [skip.eq_def] at h; cases h
    | succ fuel =>
      rw [skip.eq_def] at h
      simp only at h
      split at h
      · rename_i hw; subst hw
        rw [Option.map_eq_some_iff] at h
        obtain ⟨⟨n, y⟩, h1, rfl⟩ := h
        obtain ⟨x, h2, h3⟩ := readVarint_inv h1
        exact ⟨x, h2, n, h3⟩
      split at h
      · rename_i hw; subst hw
        rw [Option.map_eq_some_iff] at h
        obtain ⟨⟨n, y⟩, h1, rfl⟩ := h
        exact (readFixed_inv h1).1
      split at h
      · rename_i hw; subst hw
        rw [Option.map_eq_some_iff] at h
        obtain ⟨⟨s, y⟩, h1, rfl⟩ := h
        obtain ⟨x, h2, h3⟩ := readBytes_inv h1
        exact ⟨x, h2, s, h3⟩
      split at h
      · rename_i hw; subst hw
        rw [Option.map_eq_some_iff] at h
        obtain ⟨⟨n, y⟩, h1, rfl⟩ := h
        exact (readFixed_inv h1).1
      split at h <;> cases h
  | succ d ih =>
    intro fuel num wt b r h
    cases fuel with
    | zero => rw [skip.eq_def] at h; cases h
    | succ fuel =>
      rw [skip.eq_def] at h
      simp only at h
      split at h
      · rename_i hw; subst hw
        rw [Option.map_eq_some_iff] at h
        obtain ⟨⟨n, y⟩, h1, rfl⟩ := h
        obtain ⟨x, h2, h3⟩ := readVarint_inv h1
        exact ⟨x, h2, n, h3⟩
      split at h
      · rename_i hw; subst hw
        rw [Option.map_eq_some_iff] at h
        obtain ⟨⟨n, y⟩, h1, rfl⟩ := h
        exact (readFixed_inv h1).1
      split at h
      · rename_i hw; subst hw
        rw [Option.map_eq_some_iff] at h
        obtain ⟨⟨s, y⟩, h1, rfl⟩ := h
        obtain ⟨x, h2, h3⟩ := readBytes_inv h1
        exact ⟨x, h2, s, h3⟩
      split at h
      · rename_i hw; subst hw
        rw [Option.map_eq_some_iff] at h
        obtain ⟨⟨n, y⟩, h1, rfl⟩ := h
        exact (readFixed_inv h1).1
      split at h
      · rename_i hw; subst hw
        exact group_inv ih fuel b r h
      · cases h

/-! ## Unknown fields -/

theorem unknown_append {t : Nat} {u w : Bytes} (h : Unknown S t u) (h' : Unknown S t w) : Unknown S t (u ++ w) := by
  induction h with
  | nil => exact h'
  | cons h1 h2 h3 h4 h5 _ ih =>
    rw [List.append_assoc]
    exact .cons h1 h2 h3 h4 h5 ih

theorem readUnknown_inv {t num wt : Nat} (h1 : 1 ≤ num) (h2 : num < 2 ^ 29) (h3 : wt < 8)
    (hn : ∀ f ∈ S t, f.num = num → wt ≠ f.wire ∧ (f.card = .packed → wt ≠ { f with card := .repeated : Field }.wire)) {m m' : Rec} {b r : Bytes}
    (hu : Unknown S t m.unknown) (h : readUnknown num wt m b = some (m', r)) : m'.fields = m.fields ∧ Unknown S t m'.unknown := by
  unfold readUnknown at h
  cases hs : skip (2 * b.length + 2) (recursionLimit + 1) num wt b with
  | none => rw [hs] at h; cases h
  | some y =>
    rw [hs] at h
    cases h
    obtain ⟨x, rfl, hr⟩ := skip_inv _ _ _ _ _ _ hs
    refine ⟨rfl, ?_⟩
    show Unknown S t (m.unknown ++ tag num wt ++ (x ++ r).take ((x ++ r).length - r.length))
    have e : (x ++ r).take ((x ++ r).length - r.length) = x := by simp
    rw [e, List.append_assoc]
    refine unknown_append hu ?_
    have := Unknown.cons (S := S) (t := t) h1 h2 ((shortest_iff (by omega)).2 rfl) hn hr .nil
    rwa [List.append_nil] at this

/-! ## Fields -/

/-- Two entries may be in this order. -/
def Ord (S : Schema) (t : Nat) (x y : Nat × Val) : Prop :=
  ∃ (i : Nat) (j : Nat) (f g : Field), (S t)[i]? = some f ∧ (S t)[j]? = some g ∧ f.num = x.1 ∧ g.num = y.1 ∧
    (i < j ∨ i = j ∧ f.card = .repeated) ∧ ∀ o, f.card = .oneof o → g.card ≠ .oneof o

theorem ord_place (hS : S.Proper) {t : Nat} {x y : Nat × Val} (h : Ord S t x y) : S.place t x.1 ≤ S.place t y.1 := by
  obtain ⟨i, j, f, g, h1, h2, h3, h4, h5, -⟩ := h
  rw [← h3, ← h4, place_of hS h1, place_of hS h2]
  omega

theorem ord_of (hS : S.Proper) {t : Nat} {f g : Field} (hf : f ∈ S t) (hg : g ∈ S t) {x y : Nat × Val} (hx : f.num = x.1) (hy : g.num = y.1)
    (h : S.place t x.1 < S.place t y.1 ∨ x.1 = y.1 ∧ f.card = .repeated) (ho : ∀ o, f.card = .oneof o → g.card ≠ .oneof o) : Ord S t x y := by
  obtain ⟨i, hi⟩ := List.mem_iff_getElem?.1 hf
  obtain ⟨j, hj⟩ := List.mem_iff_getElem?.1 hg
  refine ⟨i, j, f, g, hi, hj, hx, hy, ?_, ho⟩
  have e1 := place_of hS hi
  have e2 := place_of hS hj
  rw [hx] at e1
  rw [hy] at e2
  rcases h with h | ⟨h, hc⟩
  · left; omega
  · right; exact ⟨by rw [← e1, ← e2, h], hc⟩

theorem mem_insert {t : Nat} {e x : Nat × Val} {fs : List (Nat × Val)} : x ∈ insert S t e fs ↔ x = e ∨ x ∈ fs := by
  induction fs with
  | nil => simp [insert]
  | cons y r ih =>
    rw [insert]
    split
    · simp
    · simp [ih, or_left_comm]

theorem insert_order (hS : S.Proper) {t : Nat} {e : Nat × Val} {fs : List (Nat × Val)} (h : fs.Pairwise (Ord S t))
    (h1 : ∀ x ∈ fs, S.place t x.1 ≤ S.place t e.1 → Ord S t x e) (h2 : ∀ x ∈ fs, S.place t e.1 < S.place t x.1 → Ord S t e x) :
    (insert S t e fs).Pairwise (Ord S t) := by
  induction fs with
  | nil => simp [insert]
  | cons y r ih =>
    rw [List.pairwise_cons] at h
    rw [insert]
    split
    · rename_i hlt
      rw [List.pairwise_cons]
      refine ⟨?_, List.pairwise_cons.2 h⟩
      intro x hx
      rcases List.mem_cons.1 hx with rfl | hx
      · exact h2 _ (by simp) hlt
      · exact h2 x (by simp [hx]) (Nat.lt_of_lt_of_le hlt (ord_place hS (h.1 x hx)))
    · rename_i hge
      rw [List.pairwise_cons]
      refine ⟨?_, ih h.2 (fun x hx => h1 x (by simp [hx])) (fun x hx => h2 x (by simp [hx]))⟩
      intro x hx
      rcases mem_insert.1 hx with rfl | hx
      · exact h1 y (by simp) (by omega)
      · exact h.1 x hx

/-- The fields of a message that are set. -/
def FieldsOk (S : Schema) (d t : Nat) (fs : List (Nat × Val)) : Prop :=
  (∀ e ∈ fs, ∃ f ∈ S t, f.num = e.1 ∧ f.Takes e.2 ∧ Fits S d f.kind e.2) ∧ InOrder S t fs

theorem place_inj (hS : S.Proper) {t : Nat} {f g : Field} (hf : f ∈ S t) (hg : g ∈ S t) (h : S.place t f.num = S.place t g.num) : f = g := by
  obtain ⟨i, hi⟩ := List.mem_iff_getElem?.1 hf
  obtain ⟨j, hj⟩ := List.mem_iff_getElem?.1 hg
  rw [place_of hS hi, place_of hS hj] at h
  subst h
  rw [hi] at hj
  exact Option.some.inj hj

theorem insert_ok (hS : S.Proper) {d t : Nat} {fs : List (Nat × Val)} {f : Field} {v : Val} (hf : f ∈ S t) (h : FieldsOk S d t fs) (ht : f.Takes v)
    (hv : Fits S d f.kind v) (hc : f.card = .repeated ∨ ∀ e ∈ fs, clears S t f e.1 = false) : FieldsOk S d t (insert S t (f.num, v) fs) := by
  have key : ∀ x ∈ fs, ∃ g ∈ S t, g.num = x.1 ∧ (x.1 = f.num → f.card = .repeated) ∧ ∀ o, g.card = .oneof o → f.card ≠ .oneof o := by
    intro x hx
    obtain ⟨g, hg, hn, -, -⟩ := h.1 x hx
    refine ⟨g, hg, hn, ?_, ?_⟩
    · intro e
      rcases hc with hc | hc
      · exact hc
      · have := hc x hx
        unfold clears at this
        rw [e] at this; simp at this
    · intro o ho ho'
      rcases hc with hc | hc
      · rw [hc] at ho'; cases ho'
      · have := hc x hx
        unfold clears at this
        rw [ho', ← hn, field_iff hS hg] at this
        simp [ho] at this
  refine ⟨?_, insert_order hS h.2 ?_ ?_⟩
  · intro e he
    rcases mem_insert.1 he with rfl | he
    · exact ⟨f, hf, rfl, ht, hv⟩
    · exact h.1 e he
  · intro x hx hp
    obtain ⟨g, hg, hn, hr, ho⟩ := key x hx
    refine ord_of hS hg hf hn rfl ?_ ho
    rcases Nat.lt_or_eq_of_le hp with hp | hp
    · exact .inl hp
    · have e : g = f := place_inj hS hg hf (by rw [hn]; exact hp)
      subst e
      exact .inr ⟨hn.symm, hr hn.symm⟩
  · intro x hx hp
    obtain ⟨g, hg, hn, hr, ho⟩ := key x hx
    exact ord_of hS hf hg rfl hn (.inl hp) fun o h1 h2 => ho o h2 h1

theorem filter_ok {d t : Nat} {fs : List (Nat × Val)} (p : Nat × Val → Bool) (h : FieldsOk S d t fs) : FieldsOk S d t (fs.filter p) :=
  ⟨fun e he => h.1 e (List.mem_filter.1 he).1, List.Pairwise.filter p h.2⟩

theorem set_ok (hS : S.Proper) {d t : Nat} {fs : List (Nat × Val)} {f : Field} {v : Val} (hf : f ∈ S t) (h : FieldsOk S d t fs) (ht : f.Takes v)
    (hv : Fits S d f.kind v) : FieldsOk S d t (set S t f v fs) := by
  refine insert_ok hS hf (filter_ok _ h) ht hv (.inr fun e he => ?_)
  have := (List.mem_filter.1 he).2
  simpa using this

theorem store_ok (hS : S.Proper) {d t : Nat} {fs : List (Nat × Val)} {f : Field} {v : Val} {z : Bool} (hf : f ∈ S t) (h : FieldsOk S d t fs)
    (hp : f.card ≠ .packed) (hnn : ∀ l, v ≠ .nums l) (hz : z = false → f.card = .implicit → ¬ v.Zero) (hv : Fits S d f.kind v) :
    FieldsOk S d t (store S t f v z fs) := by
  have hpk : f.card = .packed ↔ ∃ l, v = .nums l := ⟨fun h => absurd h hp, fun ⟨l, h⟩ => absurd h (hnn l)⟩
  unfold store
  cases hc : f.card with
  | repeated => exact insert_ok hS hf h ⟨hpk, fun h => by rw [hc] at h; cases h⟩ hv (.inl hc)
  | implicit =>
    simp only
    cases z with
    | true => exact filter_ok _ h
    | false => exact set_ok hS hf h ⟨hpk, hz rfl⟩ hv
  | optional => exact set_ok hS hf h ⟨hpk, fun h => by rw [hc] at h; cases h⟩ hv
  | packed => exact absurd hc hp
  | oneof g => exact set_ok hS hf h ⟨hpk, fun h => by rw [hc] at h; cases h⟩ hv

theorem get_mem {n : Nat} {fs : List (Nat × Val)} {v : Val} (h : get n fs = some v) : (n, v) ∈ fs := by
  unfold get at h
  rw [Option.map_eq_some_iff] at h
  obtain ⟨e, h1, rfl⟩ := h
  have := List.find?_some h1
  have e1 : e.1 = n := by simpa using this
  rw [← e1]
  exact List.mem_of_find?_eq_some h1

theorem addNums_ok (hS : S.Proper) {d t : Nat} {fs : List (Nat × Val)} {f : Field} {l : List Nat} (hf : f ∈ S t) (h : FieldsOk S d t fs)
    (hp : f.card = .packed) (hl : ∀ n ∈ l, n < f.kind.range) : FieldsOk S d t (addNums S t f l fs) := by
  unfold addNums
  split
  · exact h
  · rename_i hne
    refine set_ok hS hf h ⟨⟨fun _ => ⟨_, rfl⟩, fun _ => hp⟩, fun h => by rw [hp] at h; cases h⟩ ?_
    have hk : ∀ n ∈ packedOf f.num fs, n < f.kind.range := by
      unfold packedOf
      cases hg : get f.num fs with
      | none => simp
      | some v =>
        cases v with
        | nums l' =>
          obtain ⟨g, hg', hn, -, hv⟩ := h.1 _ (get_mem hg)
          have : g = f := by
            have a := field_iff hS hg'
            rw [hn] at a
            rw [field_iff hS hf] at a
            exact (Option.some.inj a).symm
          subst this
          have hv' : l' ≠ [] ∧ ∀ n ∈ l', n < g.kind.range := by
            simp only at hv
            cases hk : g.kind <;> simp only [hk] at hv <;> cases d <;> exact hv
          exact hv'.2
        | _ => simp
    have : packedOf f.num fs ++ l ≠ [] ∧ ∀ n ∈ packedOf f.num fs ++ l, n < f.kind.range :=
      ⟨hne, fun n hn => (List.mem_append.1 hn).elim (hk n) (hl n)⟩
    generalize packedOf f.num fs ++ l = l2 at this
    cases hk : f.kind <;> simp only [hk] at this <;> cases d <;> exact this

theorem fits_num {d : Nat} {k : Kind} {n : Nat} (h : n < k.range) : Fits S d k (.num n) := by
  cases d <;> cases k <;> exact h

theorem fits_msg {d t : Nat} {fs : List (Nat × Val)} {u : Bytes} :
    Fits S (d + 1) (.msg t) (.msg fs u) ↔ FieldsOk S d t fs ∧ Unknown S t u := by
  unfold FieldsOk
  rw [and_assoc]
  rfl

theorem messageOf_ok (hS : S.Proper) {d t t' : Nat} {fs : List (Nat × Val)} {f : Field} (hf : f ∈ S t) (h : FieldsOk S d t fs) (hk : f.kind = .msg t') :
    messageOf f.num fs = {} ∨ Fits S d (.msg t') (.msg (messageOf f.num fs).fields (messageOf f.num fs).unknown) := by
  unfold messageOf
  cases hg : get f.num fs with
  | none => exact .inl rfl
  | some v =>
    cases v with
    | msg fs' u' =>
      right
      obtain ⟨g, hg', hn, -, hv⟩ := h.1 _ (get_mem hg)
      have : g = f := by
        have a := field_iff hS hg'
        rw [hn] at a
        rw [field_iff hS hf] at a
        exact (Option.some.inj a).symm
      subst this
      rw [hk] at hv
      exact hv
    | _ => exact .inl rfl

theorem readKnown_fits (hS : S.Proper) {d t : Nat}
    (ih : ∀ t m b m', (m = {} ∨ Fits S d (.msg t) (.msg m.fields m.unknown)) → readMessage S d t m b = some m' → Fits S d (.msg t) (.msg m'.fields m'.unknown))
    {f : Field} (hf : f ∈ S t) {wt : Nat} {m m' : Rec} {b r : Bytes} (hm : FieldsOk S d t m.fields)
    (h : readKnown S (readMessage S d) t f wt m b = .ok (m', r)) : FieldsOk S d t m'.fields ∧ m'.unknown = m.unknown := by
  have num : ∀ k, f.kind = k → (k ≠ .string ∧ k ≠ .bytes ∧ ∀ t, k ≠ .msg t) → ((if f.card = .packed then
      if wt = 2 then
        match readBytes b with
        | none => .bad
        | some (s, r) =>
          match readNums k s.length s with
          | none => .bad
          | some l => Got.ok ({ m with fields := addNums S t f l m.fields }, r)
      else if wt = wireType k then
        match readNum k b with
        | none => .bad
        | some (n, r) => .ok ({ m with fields := addNums S t f [n] m.fields }, r)
      else .mismatch
    else if wt ≠ wireType k then .mismatch else
    match readNum k b with
    | none => .bad
    | some (n, r) => .ok ({ m with fields := store S t f (.num n) (n == 0) m.fields }, r)) : Got (Rec × Bytes)) = .ok (m', r) →
      FieldsOk S d t m'.fields ∧ m'.unknown = m.unknown := by
    intro k hk hk' h
    split at h
    · rename_i hp
      split at h
      · cases hb : readBytes b with
        | none => rw [hb] at h; cases h
        | some p =>
          obtain ⟨s, y⟩ := p
          rw [hb] at h
          simp only at h
          cases hn : readNums k s.length s with
          | none => rw [hn] at h; cases h
          | some l =>
            rw [hn] at h
            cases h
            exact ⟨addNums_ok hS hf hm hp (by rw [hk]; exact readNums_inv hk' _ hn), rfl⟩
      · split at h
        · cases hn : readNum k b with
          | none => rw [hn] at h; cases h
          | some p =>
            obtain ⟨n, y⟩ := p
            rw [hn] at h
            cases h
            refine ⟨addNums_ok hS hf hm hp fun x hx => ?_, rfl⟩
            rw [List.mem_singleton] at hx
            subst hx
            rw [hk]; exact readNum_inv hk' hn
        · cases h
    · rename_i hp
      split at h
      · cases h
      · cases hn : readNum k b with
        | none => rw [hn] at h; cases h
        | some p =>
          obtain ⟨n, y⟩ := p
          rw [hn] at h
          cases h
          refine ⟨store_ok hS hf hm hp (fun l => nofun) (fun hz _ h0 => ?_) (fits_num (by rw [hk]; exact readNum_inv hk' hn)), rfl⟩
          have h0 : n = 0 := h0
          subst h0
          simp at hz
  have str : (f.kind = .string ∨ f.kind = .bytes) → ∀ s, (f.kind = .string → Utf8 s) → FieldsOk S d t (store S t f (.bytes s) s.isEmpty m.fields) := by
    intro hk s hs
    have hp : f.card ≠ .packed := by
      intro hp
      obtain ⟨h1, h2, -⟩ := hS.packed t f hf hp
      rcases hk with hk | hk
      · exact h1 hk
      · exact h2 hk
    refine store_ok hS hf hm hp (fun l => nofun) (fun hz _ h0 => ?_) ?_
    · have h0 : s = [] := h0
      subst h0
      simp at hz
    · rcases hk with hk | hk
      · rw [hk]
        have := hs hk
        cases d <;> exact this
      · rw [hk]
        cases d <;> exact trivial
  unfold readKnown at h
  cases hk : f.kind <;> simp only [hk] at h
  case string =>
    split at h
    · cases h
    · cases hb : readBytes b with
      | none => rw [hb] at h; cases h
      | some p =>
        obtain ⟨s, y⟩ := p
        rw [hb] at h
        simp only at h
        split at h
        · rename_i hu
          cases h
          exact ⟨str (.inl hk) s fun _ => (validUtf8_iff s).1 hu, rfl⟩
        · cases h
  case bytes =>
    split at h
    · cases h
    · cases hb : readBytes b with
      | none => rw [hb] at h; cases h
      | some p =>
        obtain ⟨s, y⟩ := p
        rw [hb] at h
        cases h
        exact ⟨str (.inr hk) s (fun h => by rw [hk] at h; cases h), rfl⟩
  case msg t' =>
    split at h
    · cases h
    · cases hb : readBytes b with
      | none => rw [hb] at h; cases h
      | some p =>
        obtain ⟨s, y⟩ := p
        rw [hb] at h
        simp only at h
        cases hr : readMessage S d t' (if f.card = .repeated then {} else messageOf f.num m.fields) s with
        | none => rw [hr] at h; cases h
        | some x =>
          rw [hr] at h
          cases h
          refine ⟨store_ok hS hf hm (fun hp => (hS.packed t f hf hp).2.2 t' hk) (fun l => nofun) (fun _ hc => absurd hc (hS.message t f hf t' hk)) ?_, rfl⟩
          rw [hk]
          refine ih t' _ s x ?_ hr
          split
          · exact .inl rfl
          · exact messageOf_ok hS hf hm hk
  all_goals exact num _ hk ⟨nofun, nofun, fun _ => nofun⟩ h

theorem mismatch_inv {t : Nat} {f : Field} {wt : Nat} {sub : Nat → Rec → Bytes → Option Rec} {m : Rec} {b : Bytes}
    (h : readKnown S sub t f wt m b = .mismatch) : wt ≠ f.wire ∧ (f.card = .packed → wt ≠ { f with card := .repeated : Field }.wire) := by
  rw [← wire_eq, ← wire_eq]
  unfold Field.wireType
  simp only [reduceCtorEq, if_false]
  unfold readKnown at h
  by_cases hp : f.card = .packed
  · rw [if_pos hp]
    cases hk : f.kind <;> simp only [hk] at h ⊢
    case string => split at h
                   · rename_i hw; exact ⟨hw, fun _ => hw⟩
                   · cases hb : readBytes b with
                     | none => rw [hb] at h; cases h
                     | some p => rw [hb] at h; simp only at h; split at h <;> cases h
    case bytes => split at h
                  · rename_i hw; exact ⟨hw, fun _ => hw⟩
                  · cases hb : readBytes b with
                    | none => rw [hb] at h; cases h
                    | some p => rw [hb] at h; cases h
    case msg t' =>
      split at h
      · rename_i hw; exact ⟨hw, fun _ => hw⟩
      · cases hb : readBytes b with
        | none => rw [hb] at h; cases h
        | some p =>
          rw [hb] at h; simp only at h
          split at h <;> cases h
    all_goals
      rw [if_pos hp] at h
      split at h
      · cases hb : readBytes b with
        | none => rw [hb] at h; cases h
        | some p =>
          rw [hb] at h; simp only at h
          split at h <;> cases h
      · rename_i hw
        split at h
        · split at h <;> cases h
        · rename_i hw2
          exact ⟨hw, fun _ => hw2⟩
  · rw [if_neg hp]
    refine ⟨?_, fun h => absurd h hp⟩
    cases hk : f.kind <;> simp only [hk] at h ⊢
    case string => split at h
                   · rename_i hw; exact hw
                   · cases hb : readBytes b with
                     | none => rw [hb] at h; cases h
                     | some p => rw [hb] at h; simp only at h; split at h <;> cases h
    case bytes => split at h
                  · rename_i hw; exact hw
                  · cases hb : readBytes b with
                    | none => rw [hb] at h; cases h
                    | some p => rw [hb] at h; cases h
    case msg t' =>
      split at h
      · rename_i hw; exact hw
      · cases hb : readBytes b with
        | none => rw [hb] at h; cases h
        | some p =>
          rw [hb] at h; simp only at h
          split at h <;> cases h
    all_goals
      rw [if_neg hp] at h
      split at h
      · rename_i hw; exact hw
      · split at h <;> cases h

theorem readField_fits (hS : S.Proper) {d t : Nat}
    (ih : ∀ t m b m', (m = {} ∨ Fits S d (.msg t) (.msg m.fields m.unknown)) → readMessage S d t m b = some m' → Fits S d (.msg t) (.msg m'.fields m'.unknown))
    {m m' : Rec} {b r : Bytes} (hm : FieldsOk S d t m.fields ∧ Unknown S t m.unknown) (h : readField S (readMessage S d) t m b = some (m', r)) :
    FieldsOk S d t m'.fields ∧ Unknown S t m'.unknown := by
  unfold readField at h
  cases ht : readTag b with
  | none => rw [ht] at h; cases h
  | some p =>
    obtain ⟨num, wt, y⟩ := p
    rw [ht] at h
    simp only at h
    obtain ⟨l, e1, hl, h1, h2, h3⟩ := readTag_inv ht
    split at h
    · cases h
    · cases hf : S.field t num with
      | none =>
        rw [hf] at h
        simp only at h
        obtain ⟨e, hu⟩ := readUnknown_inv (S := S) (t := t) h1 h2 h3 (fun f hf' hn => by
          have := field_iff hS hf'
          rw [hn, hf] at this; cases this) hm.2 h
        rw [e]; exact ⟨hm.1, hu⟩
      | some f =>
        rw [hf] at h
        obtain ⟨hmem, hn⟩ := field_mem hf
        simp only at h
        cases hk : readKnown S (readMessage S d) t f wt m y with
        | ok x =>
          rw [hk] at h
          cases h
          obtain ⟨a, b⟩ := readKnown_fits hS ih hmem hm.1 hk
          exact ⟨a, by rw [b]; exact hm.2⟩
        | bad => rw [hk] at h; cases h
        | mismatch =>
          rw [hk] at h
          simp only at h
          obtain ⟨e, hu⟩ := readUnknown_inv (S := S) (t := t) h1 h2 h3 (fun g hg' hn' => by
            have := field_iff hS hg'
            rw [hn', hf] at this; cases this
            exact mismatch_inv hk) hm.2 h
          rw [e]; exact ⟨hm.1, hu⟩

/-- A message that is read is of its type, whatever the bytes. -/
theorem readMessage_fits (hS : S.Proper) (d : Nat) : ∀ t m b m', (m = {} ∨ Fits S d (.msg t) (.msg m.fields m.unknown)) →
    readMessage S d t m b = some m' → Fits S d (.msg t) (.msg m'.fields m'.unknown) := by
  induction d with
  | zero => intro t m b m' _ h; rw [readMessage] at h; cases h
  | succ d ih =>
    intro t m b m' hm h
    rw [readMessage] at h
    rw [fits_msg]
    have hm' : FieldsOk S d t m.fields ∧ Unknown S t m.unknown := by
      rcases hm with rfl | hm
      · exact ⟨⟨by simp, .nil⟩, .nil⟩
      · exact fits_msg.1 hm
    generalize b.length = fuel at h
    clear hm
    induction fuel generalizing m b with
    | zero =>
      cases b with
      | nil => rw [readFields] at h; cases h; exact hm'
      | cons c b => rw [readFields] at h; cases h
    | succ fuel ih2 =>
      cases b with
      | nil => rw [readFields] at h; cases h; exact hm'
      | cons c b =>
        rw [readFields] at h
        · cases ho : readField S (readMessage S d) t m (c :: b) with
          | none => rw [ho] at h; cases h
          | some p =>
            obtain ⟨m2, y⟩ := p
            rw [ho] at h
            simp only at h
            exact ih2 m2 y (readField_fits hS ih hm' ho) h
        · simp

end Verif.Pb
