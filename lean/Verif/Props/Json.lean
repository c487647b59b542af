import Verif.Lemmas.Json
import Verif.Lemmas.JsonNumber
import Verif.Lemmas.JsonBase64
import Verif.Props.Wire
/-!
# C100: metrics as JSON
-/
namespace Verif.Jn
open Pb (Val Kind Field otlp Fits InOrder)

/-! ## Numbers -/

/-- Which types of the .proto file are written as which on the wire. -/
def good : Kind → Ty → Bool
  | .bool, .bool | .enum, .temporality | .uint32, .u32 | .sint32, .i32 | .int64, .i64 | .uint64, .u64 | .fixed64, .u64 | .fixed64, .i64 | .fixed64, .double
  | .string, .str | .bytes, .bytes => true
  | .msg t, .msg t' => t = t'
  | _, _ => false

theorem signed_complement {k n : Nat} (hk : 1 ≤ k) (h : n < 2 ^ k) : TwosComplement k n (signed k n) := by
  obtain ⟨k, rfl⟩ : ∃ j, k = j + 1 := ⟨k - 1, by omega⟩
  unfold TwosComplement signed
  rw [Nat.add_sub_cancel]
  have e : (2 : Int) ^ (k + 1) = 2 * 2 ^ k := by rw [pow_succ]; ring
  have e' : (2 : Nat) ^ (k + 1) = 2 * 2 ^ k := by rw [pow_succ]; ring
  have c : ((2 ^ k : Nat) : Int) = 2 ^ k := by push_cast; rfl
  rw [e'] at h
  rw [e]
  generalize (2 : Nat) ^ k = A at *
  generalize (2 : Int) ^ k = B at *
  subst c
  split
  · refine ⟨by omega, by omega, ?_⟩
    rw [Int.emod_eq_of_lt (by omega) (by omega)]
  · refine ⟨by omega, by omega, ?_⟩
    rw [← Int.add_emod_right, Int.emod_eq_of_lt (by omega) (by omega)]
    omega

variable {shortest : Nat → Int → Fp.Dec}

theorem double_shows (S : Fp.Right shortest) (n : Nat) : NumberShows .double n (double shortest n) := by
  by_cases h : Fp.Finite n
  · obtain ⟨s, q, h1, -, h3, h4⟩ := double_text S h
    rw [h1]
    exact .double h h3 h4
  · have hx := h
    rw [Fp.finite_iff, not_not] at hx
    unfold double
    rw [if_pos hx]
    have hn : Fp.IsNaN n ↔ Fp.fracBits n ≠ 0 := by
      rw [Fp.fracBits_eq]
      exact ⟨fun h => h.2, fun h' => ⟨by rw [← Fp.expBits_eq]; exact hx, h'⟩⟩
    by_cases hf : Fp.fracBits n ≠ 0
    · rw [if_pos hf]
      exact .nan (hn.2 hf)
    · rw [if_neg hf]
      have hs := Fp.negative_eq n
      cases hb : Fp.signBit n
      · exact .infinity h (fun h' => hf (hn.1 h')) (by rw [← hs, hb])
      · exact .minusInfinity h (fun h' => hf (hn.1 h')) (by rw [← hs, hb])

theorem number_shows (S : Fp.Right shortest) {k : Kind} {ty : Ty} (hg : good k ty = true) {n : Nat} (h : n < k.range) : NumberShows ty n (number shortest ty n) := by
  cases k <;> cases ty <;> first
    | exact absurd hg Bool.false_ne_true
    | exact absurd h (Nat.not_lt_zero _)
    | exact .bool
    | exact .u32 (natText_dec n)
    | exact .u64 (natText_dec n)
    | exact .i32 (signed_complement (by decide) h) (intText_decInt _)
    | exact .i64 (signed_complement (by decide) h) (intText_decInt _)
    | exact double_shows S n
    | skip
  unfold number
  dsimp only
  by_cases h0 : n = 0
  · rw [if_pos h0]; subst h0; exact .unspecified
  by_cases h1 : n = 1
  · rw [if_neg h0, if_pos h1]; subst h1; exact .delta
  by_cases h2 : n = 2
  · rw [if_neg h0, if_neg h1, if_pos h2]; subst h2; exact .cumulative
  · rw [if_neg h0, if_neg h1, if_neg h2]
    exact .other (by omega) (signed_complement (by decide) h) (intText_decInt _)

theorem numsOk_of_shows (S : Fp.Right shortest) {k : Kind} {ty : Ty} (hg : good k ty = true) {n : Nat} (h : n < k.range) : NumsOk (number shortest ty n) := by
  cases k <;> cases ty <;> first
    | exact absurd hg Bool.false_ne_true
    | exact absurd h (Nat.not_lt_zero _)
    | exact trivial
    | exact number_of_natText (natText_dec n)
    | exact number_of_intText (intText_decInt _)
    | skip
  · unfold number
    dsimp only
    repeat' split
    all_goals first | exact trivial | exact number_of_intText (intText_decInt _)
  · by_cases hf : Fp.Finite n
    · obtain ⟨s, q, h1, h2, -, -⟩ := double_text S hf
      simp only [number]
      rw [h1]
      exact h2
    · rw [Fp.finite_iff, not_not] at hf
      simp only [number]
      unfold double
      rw [if_pos hf]
      exact trivial

/-! ## The table -/

/-- The messages that metrics consist of. -/
def messages : List Nat := [1, 4, 7, 8, 11, 12, 13, 16, 17, 18, 19, 20, 24, 25, 26, 27, 28, 29, 30, 31, 32, 33]

theorem table : ∀ t ∈ messages, (∀ f ∈ otlp t, ∃ g ∈ decls t, g.num = f.num ∧ good f.kind g.ty = true ∧ (g.list = true ↔ f.card = .repeated)) := by decide +kernel
theorem decls_nums : ∀ t ∈ messages, ∀ f ∈ decls t, ∀ g ∈ decls t, f.num = g.num → f = g := by decide +kernel
theorem decls_names : ∀ t ∈ messages, ∀ f ∈ decls t, ∀ g ∈ decls t, f.name = g.name → f = g := by decide +kernel
/-- Is it a message that metrics consist of, or no message? -/
def inside : Kind → Bool
  | .msg t => messages.contains t
  | _ => true
theorem decls_closed : ∀ t ∈ messages, ∀ f ∈ otlp t, inside f.kind = true := by decide +kernel

theorem tyOf_eq {t : Nat} (ht : t ∈ messages) {g : Decl} (hg : g ∈ decls t) : tyOf t g.num = g.ty := by
  unfold tyOf
  cases h : (decls t).find? fun f => f.num = g.num with
  | none =>
    rw [List.find?_eq_none] at h
    exact absurd (h g hg) (by simp)
  | some f =>
    have h1 := List.mem_of_find?_eq_some h
    have h2 := List.find?_some h
    rw [decls_nums t ht f h1 g hg (by simpa using h2)]
    rfl

theorem entries_eq (t : Nat) (fs : List (Nat × Val)) : entries shortest t fs = fs.map fun e => (e.1, tree shortest (tyOf t e.1) e.2) := by
  induction fs with
  | nil => rfl
  | cons e r ih => obtain ⟨n, v⟩ := e; rw [entries, ih]; rfl

theorem entries_filter (t : Nat) (fs : List (Nat × Val)) (n : Nat) :
    ((entries shortest t fs).filter fun e => e.1 = n).map (·.2) = (valuesOf fs n).map (tree shortest (tyOf t n)) := by
  rw [entries_eq]
  induction fs with
  | nil => rfl
  | cons e r ih =>
    simp only [valuesOf] at ih
    simp only [List.map_cons, List.filter_cons, valuesOf, List.filterMap_cons]
    by_cases h : e.1 = n
    · subst h
      simp only [decide_true, if_true, List.map_cons]
      rw [ih]
    · simp only [h, decide_false, if_false, Bool.false_eq_true]
      exact ih

/-- Each field is a member. -/
theorem arrange_eq (t : Nat) (fs : List (Nat × Val)) : arrange t (entries shortest t fs) = (decls t).filterMap fun f =>
    match (valuesOf fs f.num).map (tree shortest (tyOf t f.num)) with
    | [] => none
    | x :: xs => some (f.name, if f.list then .arr (x :: xs) else x) := by
  unfold arrange
  congr 1
  funext f
  rw [entries_filter]
  generalize (valuesOf fs f.num).map (tree shortest (tyOf t f.num)) = l
  cases l <;> rfl

theorem names_eq (t : Nat) (fs : List (Nat × Val)) :
    (arrange t (entries shortest t fs)).map (·.1) = ((decls t).filter fun f => !(valuesOf fs f.num).isEmpty).map (·.name) := by
  rw [arrange_eq]
  induction decls t with
  | nil => rfl
  | cons f ds ih =>
    cases h : valuesOf fs f.num with
    | nil => simpa [h] using ih
    | cons v vs => simpa [h] using ih

theorem mem_arrange {t : Nat} (ht : t ∈ messages) {fs : List (Nat × Val)} {f : Decl} (hf : f ∈ decls t) {x : Json} (h : (f.name, x) ∈ arrange t (entries shortest t fs)) :
    ∃ v vs, valuesOf fs f.num = v :: vs ∧ x = if f.list then .arr ((v :: vs).map (tree shortest f.ty)) else tree shortest f.ty v := by
  rw [arrange_eq, List.mem_filterMap] at h
  obtain ⟨g, hg, h⟩ := h
  cases hv : valuesOf fs g.num with
  | nil => rw [hv] at h; exact absurd h (by simp)
  | cons v vs =>
    rw [hv] at h
    simp only [List.map_cons, Option.some.injEq, Prod.mk.injEq] at h
    obtain ⟨h1, h2⟩ := h
    have := decls_names t ht g hg f hf h1
    subst this
    rw [tyOf_eq ht hg] at h2
    exact ⟨v, vs, hv, h2.symm⟩

theorem mem_valuesOf {fs : List (Nat × Val)} {n : Nat} {v : Val} : v ∈ valuesOf fs n ↔ (n, v) ∈ fs := by
  unfold valuesOf
  rw [List.mem_filterMap]
  constructor
  · rintro ⟨e, he, h⟩
    split at h
    · rename_i h1
      simp only [Option.some.injEq] at h
      subst h; subst h1
      exact he
    · exact absurd h (by simp)
  · intro h
    exact ⟨_, h, by simp⟩

/-- A field that is not a list is set once. -/
theorem single {t : Nat} {fs : List (Nat × Val)} (ho : InOrder otlp t fs) {n : Nat} (hn : ∀ f ∈ otlp t, f.num = n → f.card ≠ .repeated) :
    ∀ v vs, valuesOf fs n = v :: vs → vs = [] := by
  unfold InOrder at ho
  induction fs with
  | nil => intro v vs h; exact absurd h (by simp [valuesOf])
  | cons e r ih =>
    rw [List.pairwise_cons] at ho
    intro v vs h
    by_cases he : e.1 = n
    · have h' : valuesOf (e :: r) n = e.2 :: valuesOf r n := by simp [valuesOf, he]
      rw [h'] at h
      simp only [List.cons.injEq] at h
      rw [← h.2, List.eq_nil_iff_forall_not_mem]
      intro w hw
      obtain ⟨i, j, f, g, h1, h2, h3, h4, h5, -⟩ := ho.1 _ (mem_valuesOf.1 hw)
      have hp := List.pairwise_iff_getElem.1 (Pb.otlp_proper.differ t)
      obtain ⟨hi, h1⟩ := List.getElem?_eq_some_iff.1 h1
      obtain ⟨hj, h2⟩ := List.getElem?_eq_some_iff.1 h2
      rcases h5 with h5 | ⟨-, h5⟩
      · refine hp i j hi hj h5 ?_
        rw [h1, h2, h3, h4, he]
      · exact hn f (by rw [← h1]; exact List.getElem_mem hi) (by rw [h3, he]) h5
    · have h' : valuesOf (e :: r) n = valuesOf r n := by simp [valuesOf, he]
      rw [h'] at h
      exact ih ho.2 v vs h

/-! ## The tree -/

mutual
theorem tree_ok (S : Fp.Right shortest) : ∀ (v : Val) (d : Nat) (k : Kind) (ty : Ty), Fits otlp d k v → good k ty = true → (∀ t, k = .msg t → t ∈ messages) →
    Shows ty v (tree shortest ty v) ∧ NumsOk (tree shortest ty v)
  | .num n, d, k, ty, h, hg, _ => by
    have h : n < k.range := by cases d <;> cases k <;> exact h
    have e : tree shortest ty (.num n) = number shortest ty n := by cases ty <;> rfl
    rw [e]
    exact ⟨.num (number_shows S hg h), numsOk_of_shows S hg h⟩
  | .bytes b, d, k, ty, h, hg, _ => by
    cases k with
    | string => cases ty <;> first | exact absurd hg Bool.false_ne_true | exact ⟨.str, trivial⟩
    | bytes => cases ty <;> first | exact absurd hg Bool.false_ne_true | exact ⟨.bytes (base64_text b), trivial⟩
    | _ => cases d <;> exact absurd h (by simp [Fits])
  | .nums l, d, k, ty, h, hg, _ => by
    have h : ∀ n ∈ l, n < k.range := by cases d <;> cases k <;> exact h.2
    have e : tree shortest ty (.nums l) = .arr (l.map (number shortest ty)) := by cases ty <;> rfl
    rw [e]
    refine ⟨.nums ?_, numsOkList ?_⟩
    · rw [List.forall₂_map_right_iff, List.forall₂_same]
      exact fun n hn => number_shows S hg (h n hn)
    · intro x hx
      obtain ⟨n, hn, rfl⟩ := List.mem_map.1 hx
      exact numsOk_of_shows S hg (h n hn)
  | .msg fs u, d, k, ty, h, hg, hm => by
    cases k with
    | msg t =>
      cases ty with
      | msg t' =>
        have : t = t' := by simpa [good] using hg
        subst this
        cases d with
        | zero => exact absurd h (by simp [Fits])
        | succ d =>
          obtain ⟨h1, h2, -⟩ := h
          have ht := hm t rfl
          have hall := entries_ok S fs d t ht h1
          have hv : ∀ f ∈ decls t, ∀ v ∈ valuesOf fs f.num, Shows f.ty v (tree shortest f.ty v) ∧ NumsOk (tree shortest f.ty v) := by
            intro f hf v hv
            have := hall _ (mem_valuesOf.1 hv)
            rwa [tyOf_eq ht hf] at this
          rw [tree]
          refine ⟨.msg (names_eq t fs) ?_ ?_ ?_, numsOkMembers ?_⟩
          · intro f hf hl x hx v hmem
            obtain ⟨w, ws, e1, e2⟩ := mem_arrange ht hf hx
            have hw : ws = [] := by
              refine single h2 ?_ w ws e1
              intro g hg' hn hc
              obtain ⟨f', h3, h4, -, h6⟩ := table t ht g hg'
              have := decls_nums t ht f' h3 f hf (h4.trans hn)
              rw [this, hl] at h6
              exact absurd (h6.2 hc) (by decide)
            rw [hl] at e2
            rw [e1, hw, List.mem_singleton] at hmem
            subst hmem
            rw [e2]
            exact (hv f hf v (by rw [e1]; exact List.mem_cons_self)).1
          · intro f hf hl x hx
            obtain ⟨w, ws, e1, e2⟩ := mem_arrange ht hf hx
            rw [hl] at e2
            exact ⟨_, e2, by rw [e1]; simp⟩
          · intro f hf hl js hx i v y hi hy
            obtain ⟨w, ws, e1, e2⟩ := mem_arrange ht hf hx
            rw [hl, if_pos rfl] at e2
            injection e2 with e2
            rw [e2, ← e1, List.getElem?_map, hi] at hy
            simp only [Option.map_some, Option.some.injEq] at hy
            rw [← hy]
            exact (hv f hf v (List.mem_of_getElem? hi)).1
          · intro m hmem
            have hmem' := hmem
            rw [arrange_eq, List.mem_filterMap] at hmem'
            obtain ⟨f, hf, hmm⟩ := hmem'
            cases e0 : valuesOf fs f.num with
            | nil => rw [e0] at hmm; exact absurd hmm (by simp)
            | cons w ws =>
              rw [e0, tyOf_eq ht hf] at hmm
              simp only [List.map_cons, Option.some.injEq] at hmm
              rw [← hmm]
              dsimp only
              split
              · rw [← List.map_cons, ← e0]
                refine numsOkList ?_
                intro x hx
                obtain ⟨v, hv', rfl⟩ := List.mem_map.1 hx
                exact (hv f hf v hv').2
              · exact (hv f hf w (by rw [e0]; exact List.mem_cons_self)).2
      | _ => exact absurd hg Bool.false_ne_true
    | _ => cases d <;> exact absurd h (by simp [Fits])
theorem entries_ok (S : Fp.Right shortest) : ∀ (fs : List (Nat × Val)) (d t : Nat), t ∈ messages →
    (∀ e ∈ fs, ∃ f ∈ otlp t, f.num = e.1 ∧ f.Takes e.2 ∧ Fits otlp d f.kind e.2) →
    ∀ e ∈ fs, Shows (tyOf t e.1) e.2 (tree shortest (tyOf t e.1) e.2) ∧ NumsOk (tree shortest (tyOf t e.1) e.2)
  | [], _, _, _, _ => nofun
  | (n, v) :: r, d, t, ht, h => by
    intro e he
    rcases List.mem_cons.1 he with rfl | he
    · obtain ⟨f, h1, h2, -, h4⟩ := h _ List.mem_cons_self
      obtain ⟨g, g1, g2, g3, -⟩ := table t ht f h1
      have hty : tyOf t n = g.ty := by
        have := tyOf_eq ht g1
        rwa [g2, h2] at this
      have hc := decls_closed t ht f h1
      have := tree_ok S v d f.kind g.ty h4 g3 (fun t' e => by rw [e] at hc; simpa [inside] using hc)
      dsimp only
      rw [hty]
      exact this
    · exact entries_ok S r d t ht (fun e he => h e (List.mem_cons_of_mem _ he)) e he
end

variable {pretty extra : Bool}

theorem write_bytes_lead {e : Enc} (t : Tok) (hi : ∀ b ∈ e.indents, b = 32) (ho : ∀ b ∈ e.out, 32 ≤ b.toNat ∨ pretty = true ∧ b = 10) :
    (∀ b ∈ (lead pretty extra e t).indents, b = 32) ∧ ∀ b ∈ (lead pretty extra e t).out, 32 ≤ b.toNat ∨ pretty = true ∧ b = 10 := by
  have h32 : ∀ {l : Bytes}, (∀ b ∈ l, b = 32) → ∀ b ∈ l, 32 ≤ b.toNat ∨ pretty = true ∧ b = 10 := fun h b hb => by rw [h b hb]; exact .inl (by decide)
  have hind : ∀ b ∈ indent, b = 32 := by decide
  have happ : ∀ {l m : Bytes}, (∀ b ∈ l, 32 ≤ b.toNat ∨ pretty = true ∧ b = 10) → (∀ b ∈ m, 32 ≤ b.toNat ∨ pretty = true ∧ b = 10) →
      ∀ b ∈ l ++ m, 32 ≤ b.toNat ∨ pretty = true ∧ b = 10 := fun h h' b hb => (List.mem_append.1 hb).elim (h b) (h' b)
  have happ32 : ∀ {l m : Bytes}, (∀ b ∈ l, b = 32) → (∀ b ∈ m, b = 32) → ∀ b ∈ l ++ m, b = 32 := fun h h' b hb => (List.mem_append.1 hb).elim (h b) (h' b)
  have hcons : ∀ {c : UInt8} {l : Bytes}, (32 ≤ c.toNat ∨ pretty = true ∧ c = 10) → (∀ b ∈ l, 32 ≤ b.toNat ∨ pretty = true ∧ b = 10) →
      ∀ b ∈ c :: l, 32 ≤ b.toNat ∨ pretty = true ∧ b = 10 := fun h h' b hb => by
    rcases List.mem_cons.1 hb with rfl | hb
    · exact h
    · exact h' b hb
  have hex : ∀ b ∈ (if extra = true then [(32 : UInt8)] else []), b = 32 := by cases extra <;> decide
  unfold lead
  cases e.last with
  | none => exact ⟨hi, ho⟩
  | some l =>
    dsimp only
    split
    · rename_i hp
      split
      · split
        · exact ⟨hi, ho⟩
        · exact ⟨happ32 hi hind, happ ho (hcons (.inr ⟨hp, rfl⟩) (h32 (happ32 hi hind)))⟩
      · split
        · split
          · exact ⟨fun b hb => hi b (List.mem_of_mem_take hb), happ ho (hcons (.inr ⟨hp, rfl⟩) (h32 fun b hb => hi b (List.mem_of_mem_take hb)))⟩
          · exact ⟨hi, happ ho (hcons (.inl (by decide)) (hcons (.inr ⟨hp, rfl⟩) (h32 hi)))⟩
        · exact ⟨hi, happ ho (hcons (.inl (by decide)) (h32 hex))⟩
    · split
      · exact ⟨hi, happ ho (hcons (.inl (by decide)) (h32 hex))⟩
      · exact ⟨hi, ho⟩

/-- The state of a writer that has written no control characters, except line ends if they are asked for. -/
def Plain (pretty : Bool) (e : Enc) : Prop := (∀ b ∈ e.indents, b = 32) ∧ ∀ b ∈ e.out, 32 ≤ b.toNat ∨ pretty = true ∧ b = 10

theorem plain_put {e : Enc} (h : Plain pretty e) (t : Tok) {s : Bytes} (hs : ∀ b ∈ s, 32 ≤ b.toNat) : Plain pretty (put pretty extra e t s) := by
  obtain ⟨h1, h2⟩ := write_bytes_lead (extra := extra) t h.1 h.2
  exact ⟨h1, fun b hb => (List.mem_append.1 hb).elim (h2 b) fun hb => .inl (hs b hb)⟩

theorem hexDigit_plain : ∀ n : Fin 16, 32 ≤ (hexDigit n.1).toNat := by decide

theorem quote_plain (s : Bytes) : ∀ b ∈ quote s, 32 ≤ b.toNat := by
  intro b hb
  unfold quote at hb
  simp only [List.cons_append, List.mem_cons, List.mem_append, List.mem_flatMap, List.not_mem_nil, or_false] at hb
  rcases hb with rfl | ⟨c, -, hb⟩ | rfl
  · decide
  · unfold escape at hb
    split at hb
    · rename_i h
      simp only [List.mem_cons, List.not_mem_nil, or_false] at hb
      rcases hb with rfl | rfl
      · decide
      · rcases h with rfl | rfl <;> decide
    repeat' split at hb
    all_goals first
      | (simp only [List.mem_cons, List.not_mem_nil, or_false] at hb; rcases hb with rfl | rfl <;> decide)
      | skip
    · rename_i h
      simp only [List.mem_cons, List.not_mem_nil, or_false] at hb
      rcases hb with rfl | rfl | rfl | rfl | rfl | rfl
      · decide
      · decide
      · decide
      · decide
      · exact hexDigit_plain ⟨c.toNat / 16, by omega⟩
      · exact hexDigit_plain ⟨c.toNat % 16, by omega⟩
    · rename_i h
      rw [List.mem_singleton.1 hb]
      omega
  · decide

theorem number_plain {s : Bytes} (h : Number s) : ∀ b ∈ s, 32 ≤ b.toNat := by
  intro b hb
  rcases number_letters h b hb with h | rfl | rfl | rfl | rfl | rfl
  · have := isDig_toNat h; omega
  all_goals decide

mutual
theorem write_plain : ∀ (x : Json) (e : Enc), NumsOk x → Plain pretty e → Plain pretty (write pretty extra e x)
  | .null, e, _, h => plain_put h _ (by decide)
  | .bool true, e, _, h => plain_put h _ (by decide)
  | .bool false, e, _, h => plain_put h _ (by decide)
  | .num t, e, hn, h => plain_put h _ (number_plain hn)
  | .str s, e, _, h => plain_put h _ (quote_plain s)
  | .arr l, e, hn, h => plain_put (writeList_plain l _ hn (plain_put h _ (by decide))) _ (by decide)
  | .obj l, e, hn, h => plain_put (writeMembers_plain l _ hn (plain_put h _ (by decide))) _ (by decide)
theorem writeList_plain : ∀ (l : List Json) (e : Enc), NumsOkList l → Plain pretty e → Plain pretty (writeList pretty extra e l)
  | [], _, _, h => h
  | x :: xs, e, hn, h => writeList_plain xs _ hn.2 (write_plain x e hn.1 h)
theorem writeMembers_plain : ∀ (l : List (Bytes × Json)) (e : Enc), NumsOkMembers l → Plain pretty e → Plain pretty (writeMembers pretty extra e l)
  | [], _, _, h => h
  | (k, x) :: xs, e, hn, h => writeMembers_plain xs _ hn.2 (write_plain x _ hn.1 (plain_put h _ (by
      intro b hb
      rcases List.mem_append.1 hb with hb | hb
      · exact quote_plain k b hb
      · rw [List.mem_singleton.1 hb]; decide)))
end

/-! ## C100 -/

theorem strings_ok {d : Nat} {v : Val} (h : Fits otlp d (.msg 1) v) : Pb.stringsOk otlp (.msg 1) v = true :=
  (Pb.stringsOk_iff Pb.otlp_proper _ _).2 fun _ hs => Pb.fits_strings Pb.otlp_proper h hs

/-- **C100.** Metrics are written as a text in JSON that spells one value, which shows the metrics: the same value with line ends and without, with extra spaces and without. -/
theorem C100_text (S : Fp.Right shortest) {d : Nat} {v : Val} (h : Fits otlp d (.msg 1) v) :
    ∃ x, Shows (.msg 1) v x ∧ ∀ pretty extra, ∃ t, json pretty extra shortest v = some t ∧ ∀ y, Text (.value y) t ↔ y = x := by
  obtain ⟨h1, h2⟩ := tree_ok S v d (.msg 1) (.msg 1) h (by decide) (by intro t e; cases e; decide)
  refine ⟨_, h1, fun pretty extra => ⟨(write pretty extra {} (tree shortest (.msg 1) v)).out, ?_, fun y => ⟨fun hy => text_unique hy (write_top _ h2), ?_⟩⟩⟩
  · unfold json
    rw [if_pos (strings_ok h)]
  · rintro rfl
    exact write_top _ h2

/-- **C100.** The text contains no control characters, except line ends if they are asked for: without them it is one line, whatever the strings in the metrics contain. -/
theorem C100_line (S : Fp.Right shortest) {d : Nat} {v : Val} (h : Fits otlp d (.msg 1) v) {t : Bytes} (ht : json pretty extra shortest v = some t) :
    ∀ b ∈ t, 32 ≤ b.toNat ∨ pretty = true ∧ b = 10 := by
  obtain ⟨-, h2⟩ := tree_ok S v d (.msg 1) (.msg 1) h (by decide) (by intro t e; cases e; decide)
  unfold json at ht
  rw [if_pos (strings_ok h)] at ht
  simp only [Option.some.injEq] at ht
  rw [← ht]
  exact (write_plain (pretty := pretty) (extra := extra) _ {} h2 ⟨nofun, nofun⟩).2

/-- **C100.** There is an error exactly if a string is not UTF-8. -/
theorem C100_fails (v : Val) : json pretty extra shortest v = none ↔ ∃ s, Pb.HasString otlp (.msg 1) v s ∧ ¬ Pb.Utf8 s := by
  have h := Pb.stringsOk_iff Pb.otlp_proper (.msg 1) v
  unfold json
  split
  · rename_i hk
    simp only [reduceCtorEq, false_iff, not_exists, not_and, not_not]
    exact h.1 hk
  · rename_i hk
    simp only [true_iff]
    by_contra hc
    apply hk
    apply h.2
    intro s hs
    by_contra hu
    exact hc ⟨s, hs, hu⟩

end Verif.Jn
