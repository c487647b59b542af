import Verif.Lemmas.WireWeight
import Verif.Model.WireOtlp
import Verif.Props.Arrow
/-!
# C92, C93: messages as bytes
-/
namespace Verif.Pb
variable {S : Schema}

/-- **C92**: every way to write a message – numbers of the fields and lengths with any number of bytes, up to 10000 messages inside each
other – is read as the message. -/
theorem C92_reads (hS : S.Proper) {t : Nat} {v : Val} {b : Bytes} (h : Message S 10000 t v b) : unmarshal S t b = some v := by
  cases v with
  | msg fs u =>
    unfold unmarshal
    rw [show recursionLimit = 10000 from rfl, readMessage_ok hS 10000 t fs u b h]
    rfl
  | _ => exact absurd h fun h => h

theorem fits_strings {d : Nat} : ∀ {k : Kind} {v : Val} {s : Bytes} (_ : S.Proper), Fits S d k v → HasString S k v s → Utf8 s := by
  induction d with
  | zero =>
    intro k v s _ h hs
    cases hs with
    | here => exact h
    | inside => exact absurd h fun h => h
  | succ d ih =>
    intro k v s hS h hs
    cases hs with
    | here => exact h
    | @inside t fs u s e f he hf hn hs =>
      obtain ⟨g, hg, hn', -, hv⟩ := (fits_msg.1 h).1.1 e he
      have : g = f := by
        have a := field_iff hS hg
        rw [hn', ← hn, field_iff hS hf] at a
        exact (Option.some.inj a).symm
      subst this
      exact ih hS hv hs

/-- **C92**: writing a message fails exactly if a string in it is not UTF-8. -/
theorem C92_fails (hS : S.Proper) (t : Nat) (fs : List (Nat × Val)) (u : Bytes) :
    marshal S t (.msg fs u) = none ↔ ∃ s, HasString S (.msg t) (.msg fs u) s ∧ ¬ Utf8 s := by
  rw [marshal]
  have h := stringsOk_iff hS (.msg t) (.msg fs u)
  rw [stringsOk] at h
  split
  · rename_i hk
    simp only [reduceCtorEq, false_iff, not_exists, not_and, not_not]
    exact h.1 hk
  · rename_i hk
    simp only [true_iff]
    by_contra hc
    apply hk
    apply h.2
    intro s hs
    by_contra hu
    exact hc ⟨s, hs, hu⟩

/-- **C92**: a message of its type is written, in the wire format. -/
theorem C92_writes (hS : S.Proper) {t : Nat} {v : Val} (h : Fits S 10000 (.msg t) v) :
    ∃ b, marshal S t v = some b ∧ (b.length < 2 ^ 64 → Message S 10000 t v b) := by
  cases v with
  | msg fs u =>
    have hm : marshal S t (.msg fs u) = some (encFields S t fs ++ u) := by
      cases he : marshal S t (.msg fs u) with
      | none =>
        obtain ⟨s, h1, h2⟩ := (C92_fails hS t fs u).1 he
        exact absurd (fits_strings hS h h1) h2
      | some b =>
        rw [marshal] at he
        split at he
        · exact he.symm
        · cases he
    refine ⟨_, hm, fun hl => ?_⟩
    rw [show (10000 : Nat) = 9999 + 1 from rfl, fits_msg] at h
    rw [List.length_append] at hl
    exact ⟨_, rfl, encFields_ok hS (encVal_ok hS 9999) h.1.1 (by omega), h.1.2, h.2⟩
  | num n => exact absurd (show n < 0 from h) (Nat.not_lt_zero _)
  | bytes s => exact absurd h fun h => h
  | nums l =>
    obtain ⟨h1, h2⟩ : l ≠ [] ∧ ∀ n ∈ l, n < 0 := h
    obtain ⟨x, l', rfl⟩ := List.exists_cons_of_ne_nil h1
    exact absurd (h2 x (by simp)) (Nat.not_lt_zero _)

/-- **C92**: a message that is written is read back. -/
theorem C92_round_trip (hS : S.Proper) {t : Nat} {v : Val} (h : Fits S 10000 (.msg t) v) {b : Bytes} (hb : marshal S t v = some b)
    (hl : b.length < 2 ^ 64) : unmarshal S t b = some v := by
  obtain ⟨b', h1, h2⟩ := C92_writes hS h
  rw [hb] at h1
  cases h1
  exact C92_reads hS (h2 hl)

/-- **C92**: different messages are written differently. -/
theorem C92_injective (hS : S.Proper) {t : Nat} {v w : Val} (hv : Fits S 10000 (.msg t) v) (hw : Fits S 10000 (.msg t) w) {b : Bytes}
    (hb : marshal S t v = some b) (hb' : marshal S t w = some b) (hl : b.length < 2 ^ 64) : v = w := by
  have := C92_round_trip hS hv hb hl
  rw [C92_round_trip hS hw hb' hl] at this
  exact (Option.some.inj this).symm

/-- **C93**: whatever bytes arrive, what is read from them is a message of its type: it can be written. -/
theorem C93_accepted (hS : S.Proper) {t : Nat} {v : Val} {b : Bytes} (h : unmarshal S t b = some v) :
    Fits S 10000 (.msg t) v ∧ ∃ b', marshal S t v = some b' := by
  unfold unmarshal at h
  rw [Option.map_eq_some_iff] at h
  obtain ⟨m, h1, rfl⟩ := h
  have hf := readMessage_fits hS 10000 t {} b m (.inl rfl) h1
  obtain ⟨b', hb, -⟩ := C92_writes hS hf
  exact ⟨hf, b', hb⟩

/-- **C93**: … with at most 15 times as many bytes (the bytes are fewer than `2 ^ 60`; there are not more in a computer). -/
theorem C93_length (hS : S.Proper) {t : Nat} {v : Val} {b b' : Bytes} (h : unmarshal S t b = some v) (hb : marshal S t v = some b')
    (hl : b.length < 2 ^ 60) : b'.length ≤ 15 * b.length := by
  obtain ⟨hf, -⟩ := C93_accepted hS h
  have hw := unmarshal_weight h
  cases v with
  | msg fs u =>
    unfold marshal at hb
    simp only at hb
    split at hb
    · cases hb
      rw [weight] at hw
      have := encFields_length hS (fits_msg.1 hf).1 (by omega)
      rw [List.length_append]
      omega
    · cases hb
  | _ => cases hb

/-- **C93**: … and reading what is written gives it again. -/
theorem C93_again (hS : S.Proper) {t : Nat} {v : Val} {b b' : Bytes} (h : unmarshal S t b = some v) (hb : marshal S t v = some b')
    (hl : b.length < 2 ^ 60) : unmarshal S t b' = some v :=
  C92_round_trip hS (C93_accepted hS h).1 hb (by have := C93_length hS h hb hl; omega)

/-- It can be more bytes: a number that is not packed. -/
example : ∃ v, unmarshal (fun _ => [{ num := 1, kind := .uint64, card := .packed }]) 0 [8, 5] = some v ∧
    marshal (fun _ => [{ num := 1, kind := .uint64, card := .packed }]) 0 v = some [10, 1, 5] := ⟨.msg [(1, .nums [5])] [], by rfl, by decide +kernel⟩

/-! ## The messages of the program -/

/-- `Proper`, for one message type. -/
def properFields (l : List Field) : Bool :=
  decide (l.Pairwise fun f g => f.num ≠ g.num) && l.all fun f => decide (1 ≤ f.num ∧ f.num < 2 ^ 29) &&
    (match f.card, f.kind with
      | .packed, .string | .packed, .bytes | .packed, .msg _ | .implicit, .msg _ => false
      | _, _ => true)

theorem proper_of (h : ∀ t, properFields (S t) = true) : S.Proper := by
  have h' : ∀ t, (S t).Pairwise (fun f g => f.num ≠ g.num) ∧ ∀ f ∈ S t, (1 ≤ f.num ∧ f.num < 2 ^ 29) ∧
      (match f.card, f.kind with
      | .packed, .string | .packed, .bytes | .packed, .msg _ | .implicit, .msg _ => false
      | _, _ => true) = true := by
    intro t
    have := h t
    unfold properFields at this
    rw [Bool.and_eq_true, List.all_eq_true] at this
    refine ⟨of_decide_eq_true this.1, fun f hf => ?_⟩
    have := this.2 f hf
    rw [Bool.and_eq_true] at this
    exact ⟨of_decide_eq_true this.1, this.2⟩
  constructor
  · exact fun t => (h' t).1
  · exact fun t f hf => ((h' t).2 f hf).1
  · intro t f hf hp
    have := ((h' t).2 f hf).2
    rw [hp] at this
    refine ⟨fun e => ?_, fun e => ?_, fun t' e => ?_⟩ <;> rw [e] at this <;> cases this
  · intro t f hf t' hk hc
    have := ((h' t).2 f hf).2
    rw [hk, hc] at this
    cases this

theorem otlp_small : ∀ t < 34, properFields (otlp t) = true := by decide +kernel

theorem otlp_big (t : Nat) : otlp (t + 34) = [] := rfl

/-- The message types of OTLP are proper. -/
theorem otlp_proper : otlp.Proper := proper_of fun t => by
  by_cases h : t < 34
  · exact otlp_small t h
  · obtain ⟨k, rfl⟩ := Nat.exists_eq_add_of_le (Nat.le_of_not_lt h)
    rw [Nat.add_comm, otlp_big]
    rfl

/-! ## Values of attributes -/

theorem ofList_eq (l : List Rd.Any) : ofList l = l.map fun x => (1, ofAny x) := by
  induction l with
  | nil => rw [ofList]; rfl
  | cons x l ih => rw [ofList, ih]; rfl

/-- A `KeyValue`. -/
def ofPair (p : Bytes × Rd.Any) : Val := .msg (ofKey p.1 ++ if isNil p.2 then [] else [(2, ofAny p.2)]) []

theorem ofPairs_eq (l : List (Bytes × Rd.Any)) : ofPairs l = l.map fun p => (1, ofPair p) := by
  induction l with
  | nil => rw [ofPairs]; rfl
  | cons p l ih => obtain ⟨k, x⟩ := p; rw [ofPairs, ih]; rfl

theorem one_order {t : Nat} (e : Nat × Val) : InOrder S t [e] := by unfold InOrder; simp

theorem alt_ok {d n : Nat} {k : Kind} {v : Val} (hf : alt n k ∈ otlp 31) (hnn : ∀ l, v ≠ .nums l) (hv : Fits otlp d k v) :
    Fits otlp (d + 1) (.msg 31) (.msg [(n, v)] []) := by
  rw [fits_msg]
  refine ⟨⟨?_, one_order _⟩, .nil⟩
  intro e he
  rw [List.mem_singleton] at he
  subst he
  exact ⟨_, hf, rfl, ⟨⟨nofun, fun ⟨l, h⟩ => absurd h (hnn l)⟩, nofun⟩, hv⟩

theorem list_order {t : Nat} {f : Field} (hf : otlp t = [f]) (hc : f.card = .repeated) {fs : List (Nat × Val)} (h : ∀ e ∈ fs, e.1 = f.num) :
    InOrder otlp t fs := by
  unfold InOrder
  induction fs with
  | nil => exact .nil
  | cons x fs ih =>
    rw [List.pairwise_cons]
    refine ⟨fun y hy => ?_, ih fun e he => h e (by simp [he])⟩
    exact ⟨0, 0, f, f, by rw [hf]; rfl, by rw [hf]; rfl, (h x (by simp)).symm, (h y (by simp [hy])).symm, .inr ⟨rfl, hc⟩, fun o ho => by rw [hc] at ho; cases ho⟩

theorem rep_ok {d t : Nat} {k : Nat} (hf : otlp t = [rep 1 (.msg k)]) {vs : List Val} (h : ∀ v ∈ vs, (∀ l, v ≠ .nums l) ∧ Fits otlp d (.msg k) v) :
    Fits otlp (d + 1) (.msg t) (.msg (vs.map fun v => (1, v)) []) := by
  rw [fits_msg]
  refine ⟨⟨?_, list_order hf rfl (by simp [rep])⟩, .nil⟩
  intro e he
  obtain ⟨v, hv, rfl⟩ := List.mem_map.1 he
  exact ⟨rep 1 (.msg k), by rw [hf]; simp, rfl, ⟨⟨nofun, fun ⟨l, h'⟩ => absurd h' ((h v hv).1 l)⟩, nofun⟩, (h v hv).2⟩

theorem ofAny_msg (v : Rd.Any) : ∀ l, ofAny v ≠ .nums l := by intro l; cases v <;> rw [ofAny] <;> nofun

theorem key_ok {d : Nat} {k : Bytes} {x : Rd.Any} (hk : Utf8 k) (hx : x = .nil ∨ Fits otlp d (.msg 31) (ofAny x)) :
    Fits otlp (d + 1) (.msg 11) (ofPair (k, x)) := by
  have hx' : (if isNil x then [] else [(2, ofAny x)] : List (Nat × Val)) = [] ∨
      (if isNil x then [] else [(2, ofAny x)] : List (Nat × Val)) = [(2, ofAny x)] ∧ Fits otlp d (.msg 31) (ofAny x) := by
    rcases hx with rfl | hx
    · exact .inl rfl
    · cases hn : isNil x
      · exact .inr ⟨rfl, hx⟩
      · exact .inl rfl
  unfold ofPair
  generalize (if isNil x then [] else [(2, ofAny x)] : List (Nat × Val)) = w at hx'
  simp only
  rw [fits_msg]
  have f1 : ∀ hne : k ≠ [], ∃ f ∈ otlp 11, f.num = 1 ∧ f.Takes (.bytes k) ∧ Fits otlp d f.kind (.bytes k) := fun hne =>
    ⟨fld 1 .string, by decide, rfl, ⟨⟨nofun, fun ⟨l, h⟩ => Val.noConfusion h⟩, fun _ h => hne h⟩, by cases d <;> exact hk⟩
  have f2 : Fits otlp d (.msg 31) (ofAny x) → ∃ f ∈ otlp 11, f.num = 2 ∧ f.Takes (ofAny x) ∧ Fits otlp d f.kind (ofAny x) := fun h =>
    ⟨opt 2 (.msg 31), by decide, rfl, ⟨⟨nofun, fun ⟨l, h⟩ => absurd h (ofAny_msg x l)⟩, nofun⟩, h⟩
  refine ⟨⟨?_, ?_⟩, .nil⟩
  · intro e he
    rcases List.mem_append.1 he with he | he
    · unfold ofKey at he
      split at he
      · simp at he
      · rename_i hne
        rw [List.mem_singleton] at he
        subst he
        exact f1 hne
    · rcases hx' with rfl | ⟨rfl, h⟩
      · simp at he
      · rw [List.mem_singleton] at he
        subst he
        exact f2 h
  · unfold InOrder ofKey
    split
    · rcases hx' with rfl | ⟨rfl, h⟩ <;> simp
    · rcases hx' with rfl | ⟨rfl, h⟩
      · simp
      · simp only [List.cons_append, List.nil_append, List.pairwise_cons, List.mem_singleton]
        refine ⟨?_, by simp⟩
        rintro y rfl
        exact ⟨0, 1, fld 1 .string, opt 2 (.msg 31), rfl, rfl, rfl, rfl, .inl (by decide), nofun⟩

/-- The values of attributes are messages of type `AnyValue`. -/
theorem ofAny_fits (d : Nat) : ∀ v, AnyOk d v → Fits otlp d (.msg 31) (ofAny v) := by
  induction d using Nat.strongRecOn with
  | _ d ih =>
  intro v h
  match d, v, h with
  | d + 1, .unset, _ => rw [ofAny, fits_msg]; exact ⟨⟨by simp, .nil⟩, .nil⟩
  | d + 1, .str s, h => rw [ofAny]; exact alt_ok (k := .string) (by decide) nofun (by cases d <;> exact h)
  | d + 1, .bool b, _ => rw [ofAny]; exact alt_ok (k := .bool) (by decide) nofun (fits_num (by cases b <;> decide))
  | d + 1, .int i, h =>
    rw [ofAny]
    refine alt_ok (k := .int64) (by decide) nofun (fits_num ?_)
    show _ < 2 ^ 64
    omega
  | d + 1, .double n, h => rw [ofAny]; exact alt_ok (k := .fixed64) (by decide) nofun (fits_num h)
  | d + 1, .bytes b, _ => rw [ofAny]; exact alt_ok (k := .bytes) (by decide) nofun (by cases d <;> exact trivial)
  | d + 2, .array l, h =>
    rw [ofAny, ofList_eq]
    have : (l.map fun x => (1, ofAny x)) = (l.map ofAny).map fun v => (1, v) := by rw [List.map_map]; rfl
    rw [this]
    refine alt_ok (k := .msg 32) (by decide) nofun (rep_ok (k := 31) rfl ?_)
    intro v hv
    obtain ⟨x, hx, rfl⟩ := List.mem_map.1 hv
    exact ⟨ofAny_msg x, ih d (by omega) x (h x hx)⟩
  | d + 3, .kvs l, h =>
    rw [ofAny, ofPairs_eq]
    have : (l.map fun p => (1, ofPair p)) = (l.map ofPair).map fun v => (1, v) := by rw [List.map_map]; rfl
    rw [this]
    refine alt_ok (k := .msg 33) (by decide) nofun (rep_ok (k := 11) rfl ?_)
    intro v hv
    obtain ⟨p, hp, rfl⟩ := List.mem_map.1 hv
    obtain ⟨h1, h2⟩ := h p hp
    exact ⟨nofun, key_ok h1 (h2.imp id fun h => ih d (by omega) _ h)⟩

theorem ofPair_inj {p q : Bytes × Rd.Any} (ih : p.2 ≠ .nil → q.2 ≠ .nil → ofAny p.2 = ofAny q.2 → p.2 = q.2) (h : ofPair p = ofPair q) : p = q := by
  obtain ⟨k, x⟩ := p
  obtain ⟨k', y⟩ := q
  have hn : ∀ {z : Rd.Any}, isNil z = true → z = .nil := fun {z} h => by cases z <;> first | rfl | cases h
  have hn' : ∀ {z : Rd.Any}, isNil z = false → z ≠ .nil := fun {z} h e => by subst e; cases h
  unfold ofPair ofKey at h
  simp only [Val.msg.injEq, and_true] at h
  simp only at ih
  by_cases hk : k = [] <;> by_cases hk' : k' = [] <;> cases hx : isNil x <;> cases hy : isNil y <;> simp [hk, hk', hx, hy] at h
  · rw [hk, hk', ih (hn' hx) (hn' hy) h]
  · rw [hk, hk', hn hx, hn hy]
  · rw [h.1, ih (hn' hx) (hn' hy) h.2]
  · rw [h, hn hx, hn hy]

theorem map_inj {α β : Type} {f : α → β} {l l' : List α} (h : ∀ x ∈ l, ∀ y ∈ l', f x = f y → x = y) (e : l.map f = l'.map f) : l = l' := by
  induction l generalizing l' with
  | nil => cases l' with
    | nil => rfl
    | cons y l' => simp at e
  | cons x l ih =>
    cases l' with
    | nil => simp at e
    | cons y l' =>
      simp only [List.map_cons, List.cons.injEq] at e
      rw [h x (by simp) y (by simp) e.1, ih (fun a ha b hb => h a (by simp [ha]) b (by simp [hb])) e.2]

/-- Different values are different messages. -/
theorem ofAny_inj (d : Nat) : ∀ v w, AnyOk d v → AnyOk d w → ofAny v = ofAny w → v = w := by
  induction d using Nat.strongRecOn with
  | _ d ih =>
  intro v w hv hw e
  cases d with
  | zero => exact absurd hv (by cases v <;> exact fun h => h)
  | succ d =>
    cases v <;> cases w <;> simp [ofAny] at e
    case nil.nil => rfl
    case nil.unset => exact absurd hv fun h => h
    case unset.nil => exact absurd hw fun h => h
    case unset.unset => rfl
    case str.str => rw [e]
    case bool.bool a b => cases a <;> cases b <;> simp at e ⊢
    case int.int i j =>
      have h1 : -2 ^ 63 ≤ i ∧ i < 2 ^ 63 := hv
      have h2 : -2 ^ 63 ≤ j ∧ j < 2 ^ 63 := hw
      have : i = j := by omega
      rw [this]
    case double.double => rw [e]
    case bytes.bytes => rw [e]
    case array.array l l' =>
      cases d with
      | zero => exact absurd hv fun h => h
      | succ d =>
        rw [ofList_eq, ofList_eq] at e
        rw [map_inj (fun x hx y hy h => ih d (by omega) x y (hv x hx) (hw y hy) (by simpa using h)) e]
    case kvs.kvs l l' =>
      match d, hv, hw with
      | d + 2, hv, hw =>
        rw [ofPairs_eq, ofPairs_eq] at e
        rw [map_inj (fun p hp q hq h => ofPair_inj (fun h1 h2 h => ih d (by omega) _ _ ((hv p hp).2.resolve_left h1) ((hw q hq).2.resolve_left h2) h)
          (by simpa using h)) e]

/-- **C92**: the value of an attribute is stored in its column as bytes, and is read back; another value has other bytes. -/
theorem C92_value {v : Rd.Any} (hv : AnyOk 10000 v) : ∃ b, marshal otlp anyValue (ofAny v) = some b ∧ (b.length < 2 ^ 64 →
    unmarshal otlp anyValue b = some (ofAny v) ∧ ∀ w, AnyOk 10000 w → marshal otlp anyValue (ofAny w) = some b → w = v) := by
  have hf := ofAny_fits 10000 v hv
  obtain ⟨b, hb, -⟩ := C92_writes otlp_proper hf
  refine ⟨b, hb, fun hl => ⟨C92_round_trip otlp_proper hf hb hl, fun w hw h => ?_⟩⟩
  exact ofAny_inj 10000 w v hw hv (C92_injective otlp_proper (ofAny_fits 10000 w hw) hf h hb hl)

/-! ## The columns of attributes -/

/-- The values that a column of attribute values can hold: messages of type `AnyValue`. -/
abbrev AnyMsg : Type := { v : Val // Fits otlp 10000 (.msg anyValue) v ∧ ∀ b, marshal otlp anyValue v = some b → b.length < 2 ^ 64 }

theorem empty_fits : Fits otlp 10000 (.msg anyValue) (.msg [] []) :=
  (fits_msg (d := 9999)).2 ⟨⟨by simp, .nil⟩, .nil⟩

open Classical in
/-- internal/arrow3/node.go:205, 225: the error of `proto.Unmarshal` is not looked at. -/
noncomputable def anyCoder : A3.Coder AnyMsg where
  marshal v := (marshal otlp anyValue v.1).getD []
  unmarshal b := match unmarshal otlp anyValue b with
    | none => ⟨.msg [] [], empty_fits, fun b h => by cases h; decide⟩
    | some v => if h : Fits otlp 10000 (.msg anyValue) v ∧ ∀ b, marshal otlp anyValue v = some b → b.length < 2 ^ 64 then ⟨v, h⟩
        else ⟨.msg [] [], empty_fits, fun b h => by cases h; decide⟩

/-- **C92**: storing the values of attributes as bytes loses nothing, which C55 and C57 ask for. -/
theorem C92_columns : anyCoder.Faithful := by
  intro v
  obtain ⟨b, hb, -⟩ := C92_writes otlp_proper v.2.1
  have hr := C92_round_trip otlp_proper v.2.1 hb (v.2.2 b hb)
  unfold anyCoder
  simp only [hb, Option.getD_some, hr]
  rw [dif_pos v.2]

/-- **C92**, with C55: messages that are stored as columns come out again, with the values of their attributes. -/
theorem C92_round_trip_columns {n : A3.Node} (h : A3.build A3.otlp 0 = some n) (ms : List (A3.Val AnyMsg n)) (rows : List Nat)
    (hr : ∀ i ∈ rows, i < ms.length) :
    (A3.proto anyCoder n (ms.foldl (A3.append anyCoder n) (A3.empty n)) rows).map some = rows.map (ms[·]?) :=
  A3.C55_round_trip anyCoder C92_columns h ms rows hr

/-! ### Concrete cases -/

/-- A list: a string, a negative number, pairs of which one has neither key nor value, a double, bytes, nothing. -/
def exVal : Rd.Any := .array [.str [97], .int (-1), .kvs [([107], .bool true), ([], .nil)], .double 0x3FF0000000000000, .bytes [255], .unset]

theorem exVal_ok : AnyOk 10000 exVal := by
  intro x hx
  have utf : ∀ c : Char, Utf8 (String.utf8EncodeChar c) := fun c => ⟨[c], by simp [Qt.utf8]⟩
  simp only [List.mem_cons, List.not_mem_nil, or_false] at hx
  rcases hx with rfl | rfl | rfl | rfl | rfl | rfl
  · exact utf 'a'
  · exact ⟨by decide, by decide⟩
  · intro p hp
    simp only [List.mem_cons, List.not_mem_nil, or_false] at hp
    rcases hp with rfl | rfl
    · exact ⟨utf 'k', .inr trivial⟩
    · exact ⟨⟨[], rfl⟩, .inl rfl⟩
  · show _ < _; decide
  · trivial
  · trivial

example : marshal otlp anyValue (ofAny exVal) = some [42, 51, 10, 3, 10, 1, 97, 10, 11, 24, 255, 255, 255, 255, 255, 255, 255, 255, 255, 1,
    10, 13, 50, 11, 10, 7, 10, 1, 107, 18, 2, 16, 1, 10, 0, 10, 9, 33, 0, 0, 0, 0, 0, 0, 240, 63, 10, 3, 58, 1, 255, 10, 0] := by decide +kernel

example : ∃ b, marshal otlp anyValue (ofAny exVal) = some b ∧ unmarshal otlp anyValue b = some (ofAny exVal) := by
  obtain ⟨b, hb, h⟩ := C92_value exVal_ok
  have hl : ∀ b, marshal otlp anyValue (ofAny exVal) = some b → b.length < 2 ^ 64 := by
    have : ((marshal otlp anyValue (ofAny exVal)).getD []).length < 2 ^ 64 := by decide +kernel
    intro b hb; rw [hb] at this; exact this
  exact ⟨b, hb, (h (hl b hb)).1⟩

/-- Lengths that are longer than need be. -/
example : (unmarshal otlp anyValue [0x0a, 0x81, 0x80, 0x00, 97]).bind (marshal otlp anyValue) = some [0x0a, 1, 97] := by decide +kernel
/-- The last member of a oneof counts. -/
example : (unmarshal otlp anyValue [0x0a, 1, 97, 0x18, 5]).bind (marshal otlp anyValue) = some [0x18, 5] := by decide +kernel
/-- Fields that the type does not have are kept, and are written after the others: field 8, a group with number 9, field 3 with a length. -/
example : (unmarshal otlp anyValue [0x42, 1, 1, 0x0a, 1, 97, 0x4b, 8, 1, 0x4c, 0x1a, 1, 7]).bind (marshal otlp anyValue) =
    some [0x0a, 1, 97, 0x42, 1, 1, 0x4b, 8, 1, 0x4c, 0x1a, 1, 7] := by decide +kernel
/-- A list inside a list is put together from two pieces. -/
example : (unmarshal otlp anyValue [0x2a, 2, 0x0a, 0, 0x2a, 4, 0x0a, 2, 0x10, 1]).bind (marshal otlp anyValue) =
    some [0x2a, 6, 0x0a, 0, 0x0a, 2, 0x10, 1] := by decide +kernel
/-- A string that is not UTF-8; a length that is too long; field 0; the end of a group that has not begun; a varint of eleven bytes. -/
example : [[0x0a, 1, 255], [0x0a, 2, 97], [0x02, 0], [0x0c], [0x10, 255, 255, 255, 255, 255, 255, 255, 255, 255, 255, 1]].map
    (fun b => (unmarshal otlp anyValue b).isNone) = [true, true, true, true, true] := by decide +kernel
/-- Buckets: a negative offset, packed counts in two pieces. -/
example : (unmarshal otlp 29 [8, 3, 18, 2, 1, 2, 16, 3]).bind (marshal otlp 29) = some [8, 3, 18, 3, 1, 2, 3] := by decide +kernel
example : (marshal otlp 29 (.msg [(1, .num (2 ^ 32 - 2)), (2, .nums [1, 2, 3])] [])) = some [8, 3, 18, 3, 1, 2, 3] := by decide +kernel
/-- The severity of a log record is sign-extended. -/
example : (marshal otlp 14 (.msg [(2, .num (2 ^ 32 - 1))] [])) = some [16, 255, 255, 255, 255, 255, 255, 255, 255, 255, 1] := by decide +kernel
/-- A number with its exemplars: the oneof is written at the place of its first member. -/
example : (unmarshal otlp 24 [42, 0, 49, 1, 0, 0, 0, 0, 0, 0, 0]).bind (marshal otlp 24) = some [49, 1, 0, 0, 0, 0, 0, 0, 0, 42, 0] := by decide +kernel

end Verif.Pb
