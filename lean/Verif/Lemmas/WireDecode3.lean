import Verif.Lemmas.WireDecode2
/-!
# Reading, exactly: the loop over the fields
-/
namespace Verif.Pb
variable {S : Schema}

/-- What becomes of a message when a piece is read. -/
def Step (S : Schema) (d t : Nat) (p : Piece) (m m' : Rec) : Prop :=
  (∃ f ∈ S t, f.Has p ∧ Effect S (readMessage S d) t f p m m') ∨
  ((∀ f ∈ S t, ¬ f.Has p) ∧ ∃ l, Shortest l (p.num * 8 + p.wt) ∧ m' = { m with unknown := m.unknown ++ (l ++ p.raw) })

theorem means_raw {k : Kind} {n num : Nat} {b : Bytes} (h : Means k n b) (d : Nat) : Raw d num (wireType k) b := by
  cases k <;> simp only [Means] at h
  case bool => obtain ⟨w, h, -⟩ := h; cases d <;> exact ⟨w, h⟩
  case enum => obtain ⟨w, h, -⟩ := h; cases d <;> exact ⟨w, h⟩
  case uint32 => obtain ⟨w, h, -⟩ := h; cases d <;> exact ⟨w, h⟩
  case sint32 => obtain ⟨w, h, -⟩ := h; cases d <;> exact ⟨w, h⟩
  case int64 => cases d <;> exact ⟨n, h⟩
  case uint64 => cases d <;> exact ⟨n, h⟩
  case fixed32 => cases d <;> exact h.1
  case fixed64 => cases d <;> exact h.1

theorem raw_two {d num : Nat} {s b : Bytes} (h : Delimited s b) : Raw d num 2 b := by cases d <;> exact ⟨s, h⟩

theorem scalar_raw {k : Kind} {v : Val} {num : Nat} {b : Bytes} (h : Scalar k v b) (d : Nat) : Raw d num (wireType k) b := by
  unfold Scalar at h
  split at h
  · obtain ⟨s, -, -, h⟩ := h; exact raw_two h
  · obtain ⟨s, -, h⟩ := h; exact raw_two h
  · obtain ⟨n, -, h⟩ := h; exact means_raw h d

theorem part_raw {k : Kind} {p : Piece} {l : List Nat} (h : Part k p l) (hw : p.wt = 2 ∨ p.wt = wireType k) (d : Nat) : Raw d p.num p.wt p.raw := by
  unfold Part at h
  split at h
  · rename_i h2; obtain ⟨s, h, -⟩ := h; rw [h2]; exact raw_two h
  · rename_i h2
    obtain ⟨n, -, h⟩ := h
    rcases hw with hw | hw
    · exact absurd hw h2
    · rw [hw]; exact means_raw h d

theorem has_wt {f : Field} {p : Piece} (h : f.Has p) : if f.card = .packed then p.wt = 2 ∨ p.wt = wireType f.kind else p.wt = wireType f.kind := by
  have : p = ⟨f.num, p.wt, p.raw⟩ := by rw [← h.1]
  rw [this] at h
  exact has_iff.1 h

theorem effect_raw {sub : Nat → Rec → Bytes → Option Rec} (hS : S.Proper) {t : Nat} {f : Field} (hf : f ∈ S t) {p : Piece} (hp : f.Has p) {m m' : Rec} (h : Effect S sub t f p m m') (d : Nat) :
    Raw d p.num p.wt p.raw := by
  have hw := has_wt hp
  by_cases hk : ∃ t', f.kind = .msg t'
  · obtain ⟨t', hk⟩ := hk
    have hnp : f.card ≠ .packed := fun hc => (hS.packed t f hf hc).2.2 t' hk
    rw [if_neg hnp, hk] at hw
    obtain ⟨s, x, hs, -⟩ := (effect_msg hk).1 h
    rw [hw]; exact raw_two hs
  · have hk : ∀ t, f.kind ≠ .msg t := fun t' h => hk ⟨t', h⟩
    by_cases hc : f.card = .packed
    · rw [if_pos hc] at hw
      obtain ⟨l, hl, -⟩ := (effect_packed hc hk).1 h
      exact part_raw hl hw d
    · rw [if_neg hc] at hw
      obtain ⟨v, z, hv, -⟩ := (effect_scalar hc hk).1 h
      rw [hw]; exact scalar_raw hv d

/-- Whether bytes can be read does not depend on the message they are read into. -/
def Ind (S : Schema) (d : Nat) : Prop := ∀ t m m' b x, readMessage S d t m b = some x → ∃ y, readMessage S d t m' b = some y

theorem sound_effect (hi : Ind S d) {t : Nat} {f : Field} {p : Piece} (h : Sound (Sub S d) f p) (m : Rec) : ∃ m', Effect S (readMessage S d) t f p m m' := by
  by_cases hk : ∃ t', f.kind = .msg t'
  · obtain ⟨t', hk⟩ := hk
    obtain ⟨s, v, hs, x, hx, -⟩ := (sound_msg hk).1 h
    obtain ⟨y, hy⟩ := hi t' {} (if f.card = .repeated then {} else messageOf f.num m.fields) s x hx
    exact ⟨_, (effect_msg hk).2 ⟨s, y, hs, hy, rfl⟩⟩
  · have hk : ∀ t, f.kind ≠ .msg t := fun t' h => hk ⟨t', h⟩
    by_cases hc : f.card = .packed
    · obtain ⟨l, hl⟩ := (sound_packed hc hk).1 h
      exact ⟨_, (effect_packed hc hk).2 ⟨l, hl, rfl⟩⟩
    · obtain ⟨v, hv⟩ := (sound_scalar hc hk).1 h
      open Classical in
      exact ⟨_, (effect_scalar hc hk).2 ⟨v, decide v.Zero, hv, by simp, rfl⟩⟩

theorem effect_sound (hi : Ind S d) {t : Nat} {f : Field} {p : Piece} {m m' : Rec} (h : Effect S (readMessage S d) t f p m m') : Sound (Sub S d) f p := by
  by_cases hk : ∃ t', f.kind = .msg t'
  · obtain ⟨t', hk⟩ := hk
    obtain ⟨s, x, hs, hx, -⟩ := (effect_msg hk).1 h
    obtain ⟨y, hy⟩ := hi t' _ {} s x hx
    exact (sound_msg hk).2 ⟨s, _, hs, y, hy, rfl⟩
  · have hk : ∀ t, f.kind ≠ .msg t := fun t' h => hk ⟨t', h⟩
    by_cases hc : f.card = .packed
    · obtain ⟨l, hl, -⟩ := (effect_packed hc hk).1 h
      exact (sound_packed hc hk).2 ⟨l, hl⟩
    · obtain ⟨v, z, hv, -⟩ := (effect_scalar hc hk).1 h
      exact (sound_scalar hc hk).2 ⟨v, hv⟩

theorem not_has {f : Field} {p : Piece} (hn : f.num = p.num) : ¬ f.Has p ↔ p.wt ≠ f.wire ∧ (f.card = .packed → p.wt ≠ f.single) := by
  unfold Field.Has
  constructor
  · intro h
    exact ⟨fun e => h ⟨hn.symm, .inl e⟩, fun hc e => h ⟨hn.symm, .inr ⟨hc, e⟩⟩⟩
  · rintro ⟨h1, h2⟩ ⟨-, h | h⟩
    · exact h1 h
    · exact h2 h.1 h.2

theorem readUnknown_iff {num wt : Nat} (h1 : 1 ≤ num) (h2 : num < 2 ^ 29) (hw : wt < 8) {m m' : Rec} {b r : Bytes} :
    readUnknown num wt m b = some (m', r) ↔ ∃ raw, b = raw ++ r ∧ Raw 10001 num wt raw ∧
      ∃ l, Shortest l (num * 8 + wt) ∧ m' = { m with unknown := m.unknown ++ (l ++ raw) } := by
  constructor
  · intro h
    have h' := h
    unfold readUnknown at h
    cases hs : skip (2 * b.length + 2) (recursionLimit + 1) num wt b with
    | none => rw [hs] at h; cases h
    | some y =>
      rw [hs] at h
      simp only [Option.some.injEq, Prod.mk.injEq] at h
      obtain ⟨h, rfl⟩ := h
      obtain ⟨x, rfl, hr⟩ := skip_inv _ _ _ _ _ _ hs
      have hl : Shortest (tag num wt) (num * 8 + wt) := (shortest_iff (by omega)).2 rfl
      rw [readUnknown_ok h1 h2 hl hr] at h'
      refine ⟨x, rfl, hr, _, hl, ?_⟩
      simpa using h'.symm
  · rintro ⟨raw, rfl, hr, l, hl, rfl⟩
    exact readUnknown_ok h1 h2 hl hr m r

/-- One turn of the loop. -/
theorem field_step (hS : S.Proper) {d t : Nat} {m m' : Rec} {b r : Bytes} : readField S (readMessage S d) t m b = some (m', r) ↔
    ∃ (p : Piece) (l : Bytes), b = l ++ p.raw ++ r ∧ 1 ≤ p.num ∧ p.num < 2 ^ 29 ∧ Varint l (p.num * 8 + p.wt) ∧ Raw 10001 p.num p.wt p.raw ∧ Step S d t p m m' := by
  constructor
  · intro h
    unfold readField at h
    cases ht : readTag b with
    | none => rw [ht] at h; cases h
    | some q =>
      obtain ⟨num, wt, y⟩ := q
      rw [ht] at h
      simp only at h
      obtain ⟨l, e1, hl, h1, h2, h3⟩ := readTag_inv ht
      have unk : (∀ f ∈ S t, f.num = num → wt ≠ f.wire ∧ (f.card = .packed → wt ≠ f.single)) → readUnknown num wt m y = some (m', r) →
          ∃ (p : Piece) (l : Bytes), b = l ++ p.raw ++ r ∧ 1 ≤ p.num ∧ p.num < 2 ^ 29 ∧ Varint l (p.num * 8 + p.wt) ∧ Raw 10001 p.num p.wt p.raw ∧ Step S d t p m m' := by
        intro hno h
        obtain ⟨raw, rfl, hr, l', hl', e⟩ := (readUnknown_iff h1 h2 h3).1 h
        refine ⟨⟨num, wt, raw⟩, l, by rw [e1, List.append_assoc], h1, h2, hl, hr, .inr ⟨?_, l', hl', e⟩⟩
        intro f hf hh
        exact (not_has (has_num hh)).2 (hno f hf (has_num hh)) hh
      split at h
      · cases h
      · cases hf : S.field t num with
        | none =>
          rw [hf] at h
          simp only at h
          refine unk (fun f hf' hn => ?_) h
          have := field_iff hS hf'
          rw [hn, hf] at this; cases this
        | some f =>
          rw [hf] at h
          obtain ⟨hmem, hn⟩ := field_mem hf
          simp only at h
          cases hk : readKnown S (readMessage S d) t f wt m y with
          | ok x =>
            rw [hk] at h
            cases h
            obtain ⟨raw, rfl, hh, he⟩ := (known_iff hS hmem).1 hk
            subst hn
            exact ⟨⟨f.num, wt, raw⟩, l, by rw [e1, List.append_assoc], h1, h2, hl, effect_raw hS hmem hh he _, .inl ⟨f, hmem, hh, he⟩⟩
          | bad => rw [hk] at h; cases h
          | mismatch =>
            rw [hk] at h
            simp only at h
            refine unk (fun g hg' hn' => ?_) h
            have := field_iff hS hg'
            rw [hn', hf] at this; cases this
            exact mismatch_inv hk
  · rintro ⟨⟨num, wt, raw⟩, l, rfl, h1, h2, hl, hr, hs⟩
    simp only at h1 h2 hl hr ⊢
    unfold readField
    rw [List.append_assoc, readTag_ok h1 h2 (raw_lt hr).1 hl]
    simp only
    rw [if_neg (raw_lt hr).2]
    rcases hs with ⟨f, hf, hh, he⟩ | ⟨hno, l', hl', e⟩
    · have hn := has_num hh
      simp only at hn
      subst hn
      rw [field_iff hS hf]
      simp only
      rw [(known_iff hS hf).2 ⟨raw, rfl, hh, he⟩]
    · have hu := (readUnknown_iff (b := raw ++ r) (r := r) h1 h2 (raw_lt hr).1).2 ⟨raw, rfl, hr, l', hl', e⟩
      cases hf : S.field t num with
      | none => exact hu
      | some f =>
        obtain ⟨hmem, hn⟩ := field_mem hf
        simp only
        obtain ⟨a, b⟩ := (not_has (p := ⟨num, wt, raw⟩) hn).1 (hno f hmem)
        rw [readKnown_mismatch a b _ _ _ (hS.packed t f hmem)]
        exact hu

/-- The loop. -/
inductive Run (S : Schema) (d t : Nat) : List Piece → Bytes → Rec → Rec → Prop
  | nil (m : Rec) : Run S d t [] [] m m
  | cons {p : Piece} {ps : List Piece} {l r : Bytes} {m m1 m2 : Rec} : 1 ≤ p.num → p.num < 2 ^ 29 → Varint l (p.num * 8 + p.wt) →
      Raw 10001 p.num p.wt p.raw → Step S d t p m m1 → Run S d t ps r m1 m2 → Run S d t (p :: ps) (l ++ p.raw ++ r) m m2

theorem fields_run (hS : S.Proper) {d t : Nat} (fuel : Nat) : ∀ {m m' : Rec} {b : Bytes}, b.length ≤ fuel →
    (readFields (readField S (readMessage S d) t) fuel m b = some m' ↔ ∃ ps, Run S d t ps b m m') := by
  have nil : ∀ m m', (∃ ps, Run S d t ps [] m m') ↔ m = m' := by
    intro m m'
    constructor
    · rintro ⟨ps, h⟩
      generalize hb : ([] : Bytes) = b at h
      cases h with
      | nil => rfl
      | cons _ _ hl => have := varint_pos hl; simp at hb; rw [hb.1] at this; simp at this
    · rintro rfl; exact ⟨[], .nil m⟩
  induction fuel with
  | zero =>
    intro m m' b hb
    have : b = [] := by simpa using hb
    subst this
    rw [nil, readFields_nil, Option.some.injEq]
  | succ fuel ih =>
    intro m m' b hb
    by_cases h0 : b = []
    · subst h0; rw [nil, readFields_nil, Option.some.injEq]
    · constructor
      · intro h
        cases ho : readField S (readMessage S d) t m b with
        | none =>
          obtain ⟨c, b', rfl⟩ := List.exists_cons_of_ne_nil h0
          rw [readFields, ho] at h
          · cases h
          · simp
        | some q =>
          obtain ⟨m1, r⟩ := q
          rw [readFields_step h0 ho] at h
          obtain ⟨p, l, rfl, h1, h2, hl, hr, hs⟩ := (field_step hS).1 ho
          have := varint_pos hl
          simp only [List.length_append] at hb
          obtain ⟨ps, hps⟩ := (ih (by omega)).1 h
          exact ⟨p :: ps, .cons h1 h2 hl hr hs hps⟩
      · rintro ⟨ps, h⟩
        cases h with
        | nil => exact absurd rfl h0
        | @cons p ps l r _ m1 _ h1 h2 hl hr hs hps =>
          have := varint_pos hl
          simp only [List.length_append] at hb
          rw [readFields_step h0 ((field_step hS).2 ⟨p, l, rfl, h1, h2, hl, hr, hs⟩)]
          exact (ih (by omega)).2 ⟨ps, hps⟩

theorem message_run (hS : S.Proper) {d t : Nat} {m m' : Rec} {b : Bytes} :
    readMessage S (d + 1) t m b = some m' ↔ ∃ ps, Run S d t ps b m m' := by
  rw [readMessage]
  exact fields_run hS _ (Nat.le_refl _)

theorem run_append {d t : Nat} {ps qs : List Piece} {a b : Bytes} {m m1 m2 : Rec} (h : Run S d t ps a m m1) (h' : Run S d t qs b m1 m2) :
    Run S d t (ps ++ qs) (a ++ b) m m2 := by
  induction h with
  | nil => exact h'
  | cons h1 h2 hl hr hs _ ih =>
    rw [List.append_assoc]
    exact .cons h1 h2 hl hr hs (ih h')

theorem read_append (hS : S.Proper) (d : Nat) : ∀ t m a b x y, readMessage S d t m a = some x → readMessage S d t x b = some y → readMessage S d t m (a ++ b) = some y := by
  cases d with
  | zero => intro t m a b x y h; rw [readMessage] at h; cases h
  | succ d =>
    intro t m a b x y h h'
    obtain ⟨ps, h⟩ := (message_run hS).1 h
    obtain ⟨qs, h'⟩ := (message_run hS).1 h'
    exact (message_run hS).2 ⟨_, run_append h h'⟩

theorem run_pieces {d t : Nat} {ps : List Piece} {b : Bytes} {m m' : Rec} (h : Run S d t ps b m m') : Pieces ps b := by
  induction h with
  | nil => exact .nil
  | cons h1 h2 hl hr _ _ ih => exact .cons h1 h2 hl hr ih

theorem run_sound (hS : S.Proper) (hi : Ind S d) {t : Nat} {ps : List Piece} {b : Bytes} {m m' : Rec} (h : Run S d t ps b m m') :
    ∀ f ∈ S t, ∀ p ∈ ps, f.Has p → Sound (Sub S d) f p := by
  induction h with
  | nil => intro f _ p hp; cases hp
  | cons h1 h2 hl hr hs _ ih =>
    intro f hf q hq hh
    rcases List.mem_cons.1 hq with rfl | hq
    · rcases hs with ⟨g, hg, hh', he⟩ | ⟨hno, -⟩
      · rw [same_field hS hf hg ((has_num hh).trans (has_num hh').symm)]
        exact effect_sound hi he
      · exact absurd hh (hno f hf)
    · exact ih f hf q hq hh

theorem run_of (hi : Ind S d) {t : Nat} {ps : List Piece} {b : Bytes} (h : Pieces ps b) (hs : ∀ f ∈ S t, ∀ p ∈ ps, f.Has p → Sound (Sub S d) f p) :
    ∀ m, ∃ m', Run S d t ps b m m' := by
  induction h with
  | nil => intro m; exact ⟨m, .nil m⟩
  | @cons p ps l r h1 h2 hl hr _ ih =>
    intro m
    have : ∃ m1, Step S d t p m m1 := by
      by_cases hf : ∃ f ∈ S t, f.Has p
      · obtain ⟨f, hf, hh⟩ := hf
        obtain ⟨m1, he⟩ := sound_effect hi (hs f hf p (List.mem_cons_self ..) hh) m
        exact ⟨m1, .inl ⟨f, hf, hh, he⟩⟩
      · refine ⟨_, .inr ⟨fun f hf' hh => hf ⟨f, hf', hh⟩, tag p.num p.wt, (shortest_iff ?_).2 rfl, rfl⟩⟩
        have := (raw_lt hr).1
        omega
    obtain ⟨m1, h⟩ := this
    obtain ⟨m', h'⟩ := ih (fun f hf p hp => hs f hf p (List.mem_cons_of_mem _ hp)) m1
    exact ⟨m', .cons h1 h2 hl hr h h'⟩

theorem ind_all (hS : S.Proper) (d : Nat) : Ind S d := by
  induction d with
  | zero => intro t m m' b x h; rw [readMessage] at h; cases h
  | succ d ih =>
    intro t m m' b x h
    obtain ⟨ps, h⟩ := (message_run hS).1 h
    obtain ⟨y, hy⟩ := run_of ih (run_pieces h) (run_sound hS ih h) m'
    exact ⟨y, (message_run hS).2 ⟨ps, hy⟩⟩

/-! ## The invariant of the loop -/

theorem kept_snoc {t : Nat} {ps : List Piece} {u : Bytes} (h : Kept S t ps u) {p : Piece} {u' : Bytes} (h' : Kept S t [p] u') : Kept S t (ps ++ [p]) (u ++ u') := by
  induction h with
  | nil => exact h'
  | known hf hh _ ih => exact .known hf hh ih
  | unknown hn hl _ ih => rw [List.append_assoc]; exact .unknown hn hl ih

structure Inv (S : Schema) (d t : Nat) (ps : List Piece) (m : Rec) : Prop where
  fields : FieldsOk S d t m.fields
  unknown : Unknown S t m.unknown
  kept : Kept S t ps m.unknown
  result : ∀ f ∈ S t, Result (Sub S d) f (counting S t f ps) (valuesOf f.num m.fields)

theorem effect_unknown {sub : Nat → Rec → Bytes → Option Rec} {t : Nat} {f : Field} {p : Piece} {m m' : Rec} (h : Effect S sub t f p m m') : m'.unknown = m.unknown := by
  by_cases hk : ∃ t', f.kind = .msg t'
  · obtain ⟨t', hk⟩ := hk
    obtain ⟨s, x, -, -, rfl⟩ := (effect_msg hk).1 h
    rfl
  · have hk : ∀ t, f.kind ≠ .msg t := fun t' h => hk ⟨t', h⟩
    by_cases hc : f.card = .packed
    · obtain ⟨l, -, rfl⟩ := (effect_packed hc hk).1 h; rfl
    · obtain ⟨v, z, -, -, rfl⟩ := (effect_scalar hc hk).1 h; rfl

theorem inv_step (hS : S.Proper) {d t : Nat} {ps : List Piece} {p : Piece} {m m' : Rec} (h : Inv S d t ps m) (h1 : 1 ≤ p.num) (h2 : p.num < 2 ^ 29)
    (hr : Raw 10001 p.num p.wt p.raw) (hs : Step S d t p m m') : Inv S d t (ps ++ [p]) m' := by
  have hl : Shortest (tag p.num p.wt) (p.num * 8 + p.wt) := (shortest_iff (by have := (raw_lt hr).1; omega)).2 rfl
  have ho := (field_step (r := []) hS).2 ⟨p, tag p.num p.wt, rfl, h1, h2, hl.1, hr, hs⟩
  obtain ⟨a, b⟩ := readField_fits hS (readMessage_fits hS d) ⟨h.fields, h.unknown⟩ ho
  refine ⟨a, b, ?_, ?_⟩
  · rcases hs with ⟨f, hf, hh, he⟩ | ⟨hno, l, hl, rfl⟩
    · have := kept_snoc h.kept (.known hf hh .nil)
      rw [List.append_nil] at this
      rwa [effect_unknown he]
    · have := kept_snoc h.kept (.unknown hno hl .nil)
      rwa [List.append_nil] at this
  · intro g hg
    have hsort := sorted_of hS h.fields
    rcases hs with ⟨f, hf, hh, he⟩ | ⟨hno, l, hl, rfl⟩
    · by_cases hn : g.num = f.num
      · obtain rfl := same_field hS hg hf hn
        exact result_self hS (read_append hS d) hf hh hsort he (h.result _ hf)
      · exact result_other hS hf hg hn hh hsort he (h.result g hg)
    · rw [counting_snoc, if_neg (hno g hg), if_neg]
      · exact h.result g hg
      · rintro ⟨g', hg', -, hh, -⟩
        exact hno g' hg' hh

theorem inv_run (hS : S.Proper) {d t : Nat} {ps : List Piece} {b : Bytes} {m m' : Rec} (h : Run S d t ps b m m') :
    ∀ {pre : List Piece}, Inv S d t pre m → Inv S d t (pre ++ ps) m' := by
  induction h with
  | nil => intro pre h; rwa [List.append_nil]
  | @cons p ps l r m m1 m2 h1 h2 hl hr hs _ ih =>
    intro pre h
    have := ih (inv_step hS h h1 h2 hr hs)
    rwa [List.append_assoc] at this

theorem inv_nil {d t : Nat} : Inv S d t [] {} := ⟨⟨by simp, .nil⟩, .nil, .nil, fun f _ => result_nil f⟩

/-! ## There is one meaning -/

theorem delimited_one {s s' b : Bytes} (h : Delimited s b) (h' : Delimited s' b) : s = s' := by
  have a := (bytes_iff (b := b) (r := [])).2 ⟨b, by simp, h⟩
  have c := (bytes_iff (b := b) (r := [])).2 ⟨b, by simp, h'⟩
  rw [a] at c
  simpa using c

theorem means_inj {k : Kind} {n n' : Nat} {b : Bytes} (h : Means k n b) (h' : Means k n' b) : n = n' := by
  have a := (num_iff (means_kind h) (b := b) (r := [])).2 ⟨b, by simp, h⟩
  have c := (num_iff (means_kind h) (b := b) (r := [])).2 ⟨b, by simp, h'⟩
  rw [a] at c
  simpa using c

theorem scalar_inj {k : Kind} {v v' : Val} {b : Bytes} (h : Scalar k v b) (h' : Scalar k v' b) : v = v' := by
  have num : ∀ k, (∃ n, v = .num n ∧ Means k n b) → (∃ n, v' = .num n ∧ Means k n b) → v = v' := by
    rintro k ⟨n, rfl, g⟩ ⟨n', rfl, g'⟩
    rw [means_inj g g']
  cases k
  case string => obtain ⟨s, rfl, -, h⟩ := h; obtain ⟨s', rfl, -, h'⟩ := h'; rw [delimited_one h h']
  case bytes => obtain ⟨s, rfl, h⟩ := h; obtain ⟨s', rfl, h'⟩ := h'; rw [delimited_one h h']
  all_goals exact num _ h h'

theorem all_inj {k : Kind} (hk : NumKind k) {l l' : List Nat} {b : Bytes} (h : AllMean k l b) (h' : AllMean k l' b) : l = l' := by
  have a := (nums_iff hk).2 h
  rw [(nums_iff hk).2 h'] at a
  exact (Option.some.inj a).symm

theorem part_inj {k : Kind} (hk : NumKind k) {p : Piece} {l l' : List Nat} (h : Part k p l) (h' : Part k p l') : l = l' := by
  unfold Part at h h'
  split at h
  · rename_i h2
    rw [if_pos h2] at h'
    obtain ⟨s, hs, h⟩ := h
    obtain ⟨s', hs', h'⟩ := h'
    rw [delimited_one hs hs'] at h
    exact all_inj hk h h'
  · rename_i h2
    rw [if_neg h2] at h'
    obtain ⟨n, rfl, h⟩ := h
    obtain ⟨n', rfl, h'⟩ := h'
    rw [means_inj h h']

theorem forall₂_inj {α β : Type} {R : α → β → Prop} (hR : ∀ a b b', R a b → R a b' → b = b') {l : List α} {l1 l2 : List β}
    (h1 : List.Forall₂ R l l1) (h2 : List.Forall₂ R l l2) : l1 = l2 := by
  induction h1 generalizing l2 with
  | nil => cases h2; rfl
  | cons h _ ih =>
    cases h2 with
    | cons h' h2 => rw [hR _ _ _ h h', ih h2]

theorem sub_inj {d t : Nat} {s : Bytes} {v v' : Val} (h : Sub S d t s v) (h' : Sub S d t s v') : v = v' := by
  obtain ⟨m, h, rfl⟩ := h
  obtain ⟨m', h', rfl⟩ := h'
  rw [h] at h'; cases h'; rfl

theorem result_inj (hS : S.Proper) {R : Nat → Bytes → Val → Prop} (hR : ∀ t s v v', R t s v → R t s v' → v = v') {t : Nat} {f : Field} (hf : f ∈ S t) {ps : List Piece} {vs vs' : List Val}
    (h : Result R f ps vs) (h' : Result R f ps vs') : vs = vs' := by
  have del : ∀ (p : Piece) (s s' : Bytes), Delimited s p.raw → Delimited s' p.raw → s = s' := fun p s s' h h' => delimited_one h h'
  by_cases hc : f.card = .packed
  · rw [result_packed hc] at h h'
    obtain ⟨ls, h, rfl⟩ := h
    obtain ⟨ls', h', rfl⟩ := h'
    rw [forall₂_inj (R := Part f.kind) (fun p l l' h h' => part_inj (hS.packed t f hf hc) h h') h h']
  · by_cases hk : ∃ t', f.kind = .msg t'
    · obtain ⟨t', hk⟩ := hk
      by_cases hr : f.card = .repeated
      · rw [result_rep_msg hr hk] at h h'
        refine forall₂_inj ?_ h h'
        rintro p v v' ⟨s, h1, h2⟩ ⟨s', h1', h2'⟩
        rw [delimited_one h1 h1'] at h2
        exact hR _ _ _ _ h2 h2'
      · rw [result_msg hr hc hk] at h h'
        rcases h with ⟨rfl, rfl⟩ | ⟨hne, ss, v, h1, h2, rfl⟩
        · rcases h' with ⟨-, rfl⟩ | ⟨hne, -⟩
          · rfl
          · exact absurd rfl hne
        · rcases h' with ⟨rfl, -⟩ | ⟨-, ss', v', h1', h2', rfl⟩
          · exact absurd rfl hne
          · rw [forall₂_inj del h1 h1'] at h2
            rw [hR _ _ _ _ h2 h2']
    · have hk : ∀ t, f.kind ≠ .msg t := fun t' h => hk ⟨t', h⟩
      by_cases hr : f.card = .repeated
      · rw [result_rep hr hk] at h h'
        exact forall₂_inj (R := fun (p : Piece) v => Scalar f.kind v p.raw) (fun p v v' h h' => scalar_inj h h') h h'
      · rw [result_one hr hc hk] at h h'
        rcases h with ⟨rfl, rfl⟩ | ⟨p, v, h1, h2, h3⟩
        · rcases h' with ⟨-, rfl⟩ | ⟨p, v, h1, -⟩
          · rfl
          · cases h1
        · rcases h' with ⟨rfl, -⟩ | ⟨p', v', h1', h2', h3'⟩
          · cases h1
          · rw [h1] at h1'; cases h1'
            obtain rfl := scalar_inj h2 h2'
            rcases h3 with ⟨a, b, rfl⟩ | ⟨a, rfl⟩ <;> rcases h3' with ⟨a', b', rfl⟩ | ⟨a', rfl⟩
            · rfl
            · exact absurd ⟨a, b⟩ a'
            · exact absurd ⟨a', b'⟩ a
            · rfl

theorem shortest_inj {n : Nat} {b b' : Bytes} (h : Shortest b n) (h' : Shortest b' n) : b = b' := by
  rw [(shortest_iff h.1.2.2).1 h, (shortest_iff h.1.2.2).1 h']

theorem kept_inj {t : Nat} {ps : List Piece} {u u' : Bytes} (h : Kept S t ps u) (h' : Kept S t ps u') : u = u' := by
  induction h generalizing u' with
  | nil => cases h'; rfl
  | known hf hh _ ih =>
    cases h' with
    | known _ _ h' => exact ih h'
    | unknown hn _ _ => exact absurd hh (hn _ hf)
  | unknown hn hl _ ih =>
    cases h' with
    | known hf hh _ => exact absurd hh (hn _ hf)
    | unknown _ hl' h' => rw [shortest_inj hl hl', ih h']

theorem values_ne {n : Nat} {fs : List (Nat × Val)} (h : valuesOf n fs ≠ []) : ∃ e ∈ fs, e.1 = n := by
  by_contra hc
  exact h (values_empty fun e he hn => hc ⟨e, he, hn⟩)

theorem fields_inj (hS : S.Proper) {t : Nat} : ∀ {fs gs : List (Nat × Val)}, Sorted S t fs → Sorted S t gs → (∀ e ∈ fs, ∃ f ∈ S t, f.num = e.1) →
    (∀ e ∈ gs, ∃ f ∈ S t, f.num = e.1) → (∀ f ∈ S t, valuesOf f.num fs = valuesOf f.num gs) → fs = gs := by
  have emp : ∀ {gs : List (Nat × Val)}, (∀ e ∈ gs, ∃ f ∈ S t, f.num = e.1) → (∀ f ∈ S t, [] = valuesOf f.num gs) → gs = [] := by
    intro gs h1 h2
    cases gs with
    | nil => rfl
    | cons y s =>
      obtain ⟨f, hf, hn⟩ := h1 y (List.mem_cons_self ..)
      have := h2 f hf
      rw [values_cons, if_pos hn.symm] at this
      cases this
  intro fs
  induction fs with
  | nil => intro gs _ _ _ h1 h2; exact (emp h1 h2).symm
  | cons x r ih =>
    intro gs hx hy hfx hfy hv
    cases gs with
    | nil => exact emp hfx fun f hf => (hv f hf).symm
    | cons y s =>
      obtain ⟨f, hf, hn⟩ := hfx x (List.mem_cons_self ..)
      obtain ⟨g, hg, hm⟩ := hfy y (List.mem_cons_self ..)
      obtain ⟨hx1, hx2⟩ := List.pairwise_cons.1 hx
      obtain ⟨hy1, hy2⟩ := List.pairwise_cons.1 hy
      have le1 : S.place t y.1 ≤ S.place t x.1 := by
        have := hv f hf
        rw [values_cons, if_pos hn.symm] at this
        obtain ⟨e, he, hen⟩ := values_ne (n := f.num) (fs := y :: s) (by rw [← this]; simp)
        rw [← hn, ← hen]
        rcases List.mem_cons.1 he with rfl | he
        · exact Nat.le_refl _
        · exact hy1 e he
      have le2 : S.place t x.1 ≤ S.place t y.1 := by
        have := hv g hg
        rw [values_cons g.num y, if_pos hm.symm] at this
        obtain ⟨e, he, hen⟩ := values_ne (n := g.num) (fs := x :: r) (by rw [this]; simp)
        rw [← hm, ← hen]
        rcases List.mem_cons.1 he with rfl | he
        · exact Nat.le_refl _
        · exact hx1 e he
      have : f = g := place_inj hS hf hg (by rw [hn, hm]; omega)
      subst this
      have hxy : x.1 = y.1 := hn.symm.trans hm
      have hh := hv f hf
      rw [values_cons, values_cons, if_pos hn.symm, if_pos hm.symm] at hh
      have e : x = y := Prod.ext hxy (List.cons.inj hh).1
      subst e
      congr 1
      refine ih hx2 hy2 (fun e he => hfx e (List.mem_cons_of_mem _ he)) (fun e he => hfy e (List.mem_cons_of_mem _ he)) fun k hk => ?_
      have := hv k hk
      rw [values_cons, values_cons] at this
      split at this
      · exact (List.cons.inj this).2
      · exact this

/-- Bytes are read as what they mean. -/
theorem sub_decodes (hS : S.Proper) (d : Nat) : Sub S d = Decodes S d := by
  induction d with
  | zero =>
    funext t b v
    apply propext
    constructor
    · rintro ⟨m, h, -⟩; rw [readMessage] at h; cases h
    · intro h; cases v <;> exact absurd h fun h => h
  | succ d ih =>
    funext t b v
    apply propext
    have hi := ind_all hS d
    cases v with
    | msg fs u =>
      rw [Decodes]
      rw [← ih]
      constructor
      · rintro ⟨m, h, e⟩
        cases e
        obtain ⟨ps, h⟩ := (message_run hS).1 h
        have hv := inv_run hS h inv_nil
        rw [List.nil_append] at hv
        refine ⟨ps, run_pieces h, run_sound hS hi h, hv.kept, hv.fields.2, fun e he => ?_, hv.result⟩
        obtain ⟨f, hf, hn, -⟩ := hv.fields.1 e he
        exact ⟨f, hf, hn⟩
      · rintro ⟨ps, hp, hs, hk, ho, hm, hr⟩
        obtain ⟨m, h⟩ := run_of hi hp hs {}
        have hv := inv_run hS h inv_nil
        rw [List.nil_append] at hv
        refine ⟨m, (message_run hS).2 ⟨ps, h⟩, ?_⟩
        have e1 : u = m.unknown := kept_inj hk hv.kept
        have e2 : fs = m.fields := by
          refine fields_inj hS (List.Pairwise.imp (fun h => ord_place hS h) ho) (sorted_of hS hv.fields) hm (fun e he => ?_) fun f hf => ?_
          · obtain ⟨f, hf, hn, -⟩ := hv.fields.1 e he
            exact ⟨f, hf, hn⟩
          · exact result_inj hS (R := Sub S d) (fun t s v v' h h' => sub_inj h h') hf (hr f hf) (hv.result f hf)
        rw [e1, e2]
    | num n => exact ⟨fun ⟨_, _, e⟩ => (by cases e), fun h => absurd h fun h => h⟩
    | bytes n => exact ⟨fun ⟨_, _, e⟩ => (by cases e), fun h => absurd h fun h => h⟩
    | nums n => exact ⟨fun ⟨_, _, e⟩ => (by cases e), fun h => absurd h fun h => h⟩

end Verif.Pb
