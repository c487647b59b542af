import Verif.Spec.Json
/-!
# What the writer writes is a text in JSON
-/
namespace Verif.Jn

mutual
/-- The numbers in a tree are numbers. -/
def NumsOk : Json → Prop
  | .num t => Number t
  | .arr l => NumsOkList l
  | .obj l => NumsOkMembers l
  | _ => True
def NumsOkList : List Json → Prop
  | [] => True
  | x :: xs => NumsOk x ∧ NumsOkList xs
def NumsOkMembers : List (Bytes × Json) → Prop
  | [] => True
  | (_, x) :: xs => NumsOk x ∧ NumsOkMembers xs
end

theorem numsOkList {l : List Json} (h : ∀ x ∈ l, NumsOk x) : NumsOkList l := by
  induction l with
  | nil => exact trivial
  | cons x xs ih => exact ⟨h x List.mem_cons_self, ih fun y hy => h y (List.mem_cons_of_mem _ hy)⟩

theorem numsOkMembers {l : List (Bytes × Json)} (h : ∀ x ∈ l, NumsOk x.2) : NumsOkMembers l := by
  induction l with
  | nil => exact trivial
  | cons x xs ih => exact ⟨h x List.mem_cons_self, ih fun y hy => h y (List.mem_cons_of_mem _ hy)⟩

theorem chars_append {s c s' c' : Bytes} (h : Chars s c) (h' : Chars s' c') : Chars (s ++ s') (c ++ c') := by
  induction h with
  | nil => exact h'
  | plain h1 h2 h3 _ ih => exact .plain h1 h2 h3 ih
  | short h1 _ ih => exact .short h1 ih
  | hex h1 h2 h3 h4 h5 _ ih => exact .hex h1 h2 h3 h4 h5 ih

theorem hexValue_digit : ∀ n : Fin 16, hexValue (hexDigit n.1) = some n.1 := by decide

theorem chars_escape (b : UInt8) : Chars [b] (escape b) := by
  unfold escape
  split
  · rename_i h
    rcases h with rfl | rfl
    · exact .short (by decide) .nil
    · exact .short (by decide) .nil
  split
  · rename_i h; subst h; exact .short (by decide) .nil
  split
  · rename_i h; subst h; exact .short (by decide) .nil
  split
  · rename_i h; subst h; exact .short (by decide) .nil
  split
  · rename_i h; subst h; exact .short (by decide) .nil
  split
  · rename_i h; subst h; exact .short (by decide) .nil
  split
  · rename_i h
    have hb : b = UInt8.ofNat (((0 * 16 + 0) * 16 + b.toNat / 16) * 16 + b.toNat % 16) := by
      have : ((0 * 16 + 0) * 16 + b.toNat / 16) * 16 + b.toNat % 16 = b.toNat := by omega
      rw [this, UInt8.ofNat_toNat]
    have key : Chars (UInt8.ofNat (((0 * 16 + 0) * 16 + b.toNat / 16) * 16 + b.toNat % 16) :: [])
        (92 :: 117 :: 48 :: 48 :: hexDigit (b.toNat / 16) :: hexDigit (b.toNat % 16) :: []) :=
      .hex (by decide) (by decide) (hexValue_digit ⟨b.toNat / 16, by omega⟩) (hexValue_digit ⟨b.toNat % 16, by omega⟩) (by omega) .nil
    rw [← hb] at key
    exact key
  · rename_i h1 _ _ _ _ _ h2
    push Not at h1 h2
    exact .plain h2 h1.1 h1.2 .nil

theorem chars_flat (s : Bytes) : Chars s (s.flatMap escape) := by
  induction s with
  | nil => exact .nil
  | cons b s ih => exact chars_append (chars_escape b) ih

theorem ws_nil : Ws [] := nofun
theorem ws_append {v w : Bytes} (hv : Ws v) (hw : Ws w) : Ws (v ++ w) := fun b hb => (List.mem_append.1 hb).elim (hv b) (hw b)
theorem ws_cons {b : UInt8} {w : Bytes} (hb : b = 32 ∨ b = 9 ∨ b = 10 ∨ b = 13) (hw : Ws w) : Ws (b :: w) := by
  intro c hc
  rcases List.mem_cons.1 hc with rfl | hc
  · exact hb
  · exact hw c hc

theorem ws_indent : Ws indent := by
  intro b hb
  simp only [indent, List.mem_cons, List.not_mem_nil, or_false, or_self] at hb
  exact .inl hb

variable {pretty extra : Bool}

/-- The same for all that does not close. -/
theorem lead_open (e : Enc) {t : Tok} (h : t.isClose = false) : lead pretty extra e t = lead pretty extra e .scalar := by
  unfold lead
  rw [h]
  rfl

theorem ws_lead {e : Enc} (h : Ws e.indents) : Ws (lead pretty extra e .scalar).indents := by
  unfold lead
  cases e.last with
  | none => exact h
  | some l =>
    dsimp only
    repeat' split
    all_goals first | exact h | exact ws_append h ws_indent | (rename_i h; exact absurd h (by decide))

/-- After a value: a comma and space. -/
theorem lead_end {e : Enc} {k : Tok} (hw : Ws e.indents) (h : e.last = some k) (hk : k.isEnd = true) :
    ∃ w, Ws w ∧ (lead pretty extra e .scalar).indents = e.indents ∧ (lead pretty extra e .scalar).out = e.out ++ 44 :: w := by
  have ho : k.isOpen = false := by cases k <;> first | rfl | exact absurd hk (by decide)
  have he : Ws (if extra then [(32 : UInt8)] else []) := by
    split
    · exact ws_cons (.inl rfl) ws_nil
    · exact ws_nil
  unfold lead
  rw [h]
  dsimp only
  rw [hk, ho]
  cases pretty
  · exact ⟨_, he, rfl, rfl⟩
  · exact ⟨10 :: e.indents, ws_cons (.inr (.inr (.inl rfl))) hw, rfl, rfl⟩

/-- After a bracket, and at the end of what is in it. -/
theorem lead_bracket {e : Enc} {k : Tok} (hw : Ws e.indents) (h : e.last = some k) (hk : k.isOpen = true) :
    ∃ w, Ws w ∧ (lead pretty extra e .scalar).out = e.out ++ w ∧ (∀ t : Tok, t.isClose = true → lead pretty extra e t = e) ∧
      ∀ (e' : Enc) (t k' : Tok), t.isClose = true → k'.isEnd = true → e'.last = some k' → e'.indents = (lead pretty extra e .scalar).indents →
        ∃ w', Ws w' ∧ (lead pretty extra e' t).indents = e.indents ∧ (lead pretty extra e' t).out = e'.out ++ w' := by
  have hn : k.isEnd = false := by cases k <;> first | rfl | exact absurd hk (by decide)
  cases pretty
  · refine ⟨[], ws_nil, ?_, ?_, ?_⟩
    · simp [lead, h, hn]
    · intro t ht; simp [lead, h, hn]
    · intro e' t k' ht hk' he' hi
      refine ⟨[], ws_nil, ?_, ?_⟩
      · simp only [lead, h, hn] at hi
        simpa [lead, he', ht] using hi
      · simp [lead, he', ht]
  · refine ⟨10 :: (e.indents ++ indent), ws_cons (.inr (.inr (.inl rfl))) (ws_append hw ws_indent), ?_, ?_, ?_⟩
    · simp [lead, h, hk, Tok.isClose]
    · intro t ht; simp [lead, h, hk, ht]
    · intro e' t k' ht hk' he' hi
      have ho' : k'.isOpen = false := by cases k' <;> first | rfl | exact absurd hk' (by decide)
      have hi' : e'.indents = e.indents ++ indent := by simpa [lead, h, hk, Tok.isClose] using hi
      refine ⟨10 :: e.indents, ws_cons (.inr (.inr (.inl rfl))) hw, ?_, ?_⟩
      · simp [lead, he', ht, hk', ho', hi', indent]
      · simp [lead, he', ht, hk', ho', hi', indent]

/-- After a name. -/
theorem lead_name {e : Enc} (h : e.last = some .name) :
    ∃ w, Ws w ∧ (lead pretty extra e .scalar).indents = e.indents ∧ (lead pretty extra e .scalar).out = e.out ++ w := by
  cases pretty
  · exact ⟨[], ws_nil, by simp [lead, h, Tok.isEnd], by simp [lead, h, Tok.isEnd]⟩
  · refine ⟨32 :: if extra then [32] else [], ?_, by simp [lead, h, Tok.isEnd, Tok.isOpen], by simp [lead, h, Tok.isEnd, Tok.isOpen]⟩
    refine ws_cons (.inl rfl) ?_
    split
    · exact ws_cons (.inl rfl) ws_nil
    · exact ws_nil

/-- What was written, `t`, from one state to another. -/
def Wrote (pretty extra : Bool) (e e' : Enc) (t : Bytes) : Prop :=
  (∃ k, e'.last = some k ∧ k.isEnd = true) ∧ e'.indents = (lead pretty extra e .scalar).indents ∧ e'.out = (lead pretty extra e .scalar).out ++ t

theorem put_scalar (e : Enc) (t : Bytes) : Wrote pretty extra e (put pretty extra e .scalar t) t := ⟨⟨_, rfl, rfl⟩, rfl, rfl⟩

mutual
theorem write_text : ∀ (x : Json) (e : Enc), Ws e.indents → NumsOk x → ∃ t, Wrote pretty extra e (write pretty extra e x) t ∧ Text (.value x) t
  | .null, e, _, _ => ⟨_, put_scalar e _, Text.null⟩
  | .bool true, e, _, _ => ⟨_, put_scalar e _, Text.tt⟩
  | .bool false, e, _, _ => ⟨_, put_scalar e _, Text.ff⟩
  | .num t, e, _, h => ⟨_, put_scalar e _, .num h⟩
  | .str s, e, _, _ => ⟨_, put_scalar e _, .str (chars_flat s)⟩
  | .arr [], e, hw, _ => by
    refine ⟨91 :: [] ++ [93], ?_, .noArr ws_nil⟩
    obtain ⟨w, h1, h2, h3, h4⟩ := lead_bracket (pretty := pretty) (extra := extra) (e := put pretty extra e .arrayOpen [91]) (k := .arrayOpen)
      (by rw [put, lead_open e rfl]; exact ws_lead hw) rfl rfl
    have h5 := h3 .arrayClose rfl
    refine ⟨⟨.arrayClose, rfl, rfl⟩, ?_, ?_⟩
    · simp only [write, writeList]
      rw [put, h5, put, lead_open e rfl]
    · simp only [write, writeList]
      rw [put, h5, put, lead_open e rfl]
      simp
  | .arr (x :: xs), e, hw, hn => by
    have hw0 : Ws (put pretty extra e .arrayOpen [91]).indents := by rw [put, lead_open e rfl]; exact ws_lead hw
    obtain ⟨w, h1, h2, -, h4⟩ := lead_bracket (pretty := pretty) (extra := extra) (e := put pretty extra e .arrayOpen [91]) (k := .arrayOpen) hw0 rfl rfl
    obtain ⟨t, ⟨⟨k, g1, g2⟩, g3, g4⟩, g5⟩ := writeList_text x xs (put pretty extra e .arrayOpen [91]) hw0 hn.1 hn.2
    obtain ⟨w', f1, f2, f3⟩ := h4 _ .arrayClose k rfl g2 g1 g3
    refine ⟨91 :: (w ++ t ++ w') ++ [93], ⟨⟨.arrayClose, rfl, rfl⟩, ?_, ?_⟩, .arr (g5 w w' h1 f1)⟩
    · simp only [write]
      rw [put]
      dsimp only
      rw [f2, put, lead_open e rfl]
    · simp only [write]
      rw [put]
      dsimp only
      rw [f3, g4, h2, put, lead_open e rfl]
      simp
  | .obj [], e, hw, _ => by
    refine ⟨123 :: [] ++ [125], ?_, .noObj ws_nil⟩
    obtain ⟨w, h1, h2, h3, h4⟩ := lead_bracket (pretty := pretty) (extra := extra) (e := put pretty extra e .objectOpen [123]) (k := .objectOpen)
      (by rw [put, lead_open e rfl]; exact ws_lead hw) rfl rfl
    have h5 := h3 .objectClose rfl
    refine ⟨⟨.objectClose, rfl, rfl⟩, ?_, ?_⟩
    · simp only [write, writeMembers]
      rw [put, h5, put, lead_open e rfl]
    · simp only [write, writeMembers]
      rw [put, h5, put, lead_open e rfl]
      simp
  | .obj ((k, x) :: xs), e, hw, hn => by
    have hw0 : Ws (put pretty extra e .objectOpen [123]).indents := by rw [put, lead_open e rfl]; exact ws_lead hw
    obtain ⟨w, h1, h2, -, h4⟩ := lead_bracket (pretty := pretty) (extra := extra) (e := put pretty extra e .objectOpen [123]) (k := .objectOpen) hw0 rfl rfl
    obtain ⟨t, ⟨⟨k', g1, g2⟩, g3, g4⟩, g5⟩ := writeMembers_text k x xs (put pretty extra e .objectOpen [123]) hw0 hn.1 hn.2
    obtain ⟨w', f1, f2, f3⟩ := h4 _ .objectClose k' rfl g2 g1 g3
    refine ⟨123 :: (w ++ t ++ w') ++ [125], ⟨⟨.objectClose, rfl, rfl⟩, ?_, ?_⟩, .obj (g5 w w' h1 f1)⟩
    · simp only [write]
      rw [put]
      dsimp only
      rw [f2, put, lead_open e rfl]
    · simp only [write]
      rw [put]
      dsimp only
      rw [f3, g4, h2, put, lead_open e rfl]
      simp
termination_by x => sizeOf x
decreasing_by all_goals (simp_wf; try omega)
theorem writeList_text : ∀ (x : Json) (xs : List Json) (e : Enc), Ws e.indents → NumsOk x → NumsOkList xs →
    ∃ t, Wrote pretty extra e (writeList pretty extra e (x :: xs)) t ∧ ∀ v w, Ws v → Ws w → Text (.elements (x :: xs)) (v ++ t ++ w)
  | x, [], e, hw, hn, _ => by
    obtain ⟨t, h1, h2⟩ := write_text x e hw hn
    exact ⟨t, by simpa only [writeList] using h1, fun v w hv hw => .element hv h2 hw⟩
  | x, y :: ys, e, hw, hn, hns => by
    obtain ⟨t, ⟨⟨k, a1, a2⟩, a3, a4⟩, h2⟩ := write_text x e hw hn
    have hw1 : Ws (write pretty extra e x).indents := by rw [a3]; exact ws_lead hw
    obtain ⟨u, ⟨b1, b3, b4⟩, h3⟩ := writeList_text y ys (write pretty extra e x) hw1 hns.1 hns.2
    obtain ⟨w0, c1, c2, c3⟩ := lead_end (pretty := pretty) (extra := extra) hw1 a1 a2
    refine ⟨t ++ 44 :: (w0 ++ u), ⟨?_, ?_, ?_⟩, ?_⟩
    · rw [writeList]; exact b1
    · rw [writeList, b3, c2, a3]
    · rw [writeList, b4, c3, a4]; simp
    · intro v w hv hw
      have := Text.elements hv h2 ws_nil (h3 w0 w c1 hw)
      simpa using this
termination_by x xs => sizeOf (x :: xs)
decreasing_by all_goals (simp_wf; try omega)
theorem writeMembers_text : ∀ (k : Bytes) (x : Json) (xs : List (Bytes × Json)) (e : Enc), Ws e.indents → NumsOk x → NumsOkMembers xs →
    ∃ t, Wrote pretty extra e (writeMembers pretty extra e ((k, x) :: xs)) t ∧ ∀ v w, Ws v → Ws w → Text (.members ((k, x) :: xs)) (v ++ t ++ w)
  | k, x, [], e, hw, hn, _ => by
    have hi : (put pretty extra e .name (quote k ++ [58])).indents = (lead pretty extra e .scalar).indents := by rw [put, lead_open e rfl]
    have hw0 : Ws (put pretty extra e .name (quote k ++ [58])).indents := by rw [hi]; exact ws_lead hw
    have ho : (put pretty extra e .name (quote k ++ [58])).out = (lead pretty extra e .scalar).out ++ (quote k ++ [58]) := by rw [put, lead_open e rfl]
    obtain ⟨w1, d1, d2, d3⟩ := lead_name (pretty := pretty) (extra := extra) (e := put pretty extra e .name (quote k ++ [58])) rfl
    obtain ⟨t, ⟨a1, a3, a4⟩, h2⟩ := write_text x (put pretty extra e .name (quote k ++ [58])) hw0 hn
    refine ⟨quote k ++ 58 :: (w1 ++ t), ⟨?_, ?_, ?_⟩, ?_⟩
    · rw [writeMembers, writeMembers]; exact a1
    · rw [writeMembers, writeMembers, a3, d2, hi]
    · rw [writeMembers, writeMembers, a4, d3, ho]; simp
    · intro v w hv hw
      have := Text.member hv (chars_flat k) ws_nil d1 h2 hw
      simpa [quote] using this
  | k, x, (k', y) :: ys, e, hw, hn, hns => by
    have hi : (put pretty extra e .name (quote k ++ [58])).indents = (lead pretty extra e .scalar).indents := by rw [put, lead_open e rfl]
    have hw0 : Ws (put pretty extra e .name (quote k ++ [58])).indents := by rw [hi]; exact ws_lead hw
    have ho : (put pretty extra e .name (quote k ++ [58])).out = (lead pretty extra e .scalar).out ++ (quote k ++ [58]) := by rw [put, lead_open e rfl]
    obtain ⟨w1, d1, d2, d3⟩ := lead_name (pretty := pretty) (extra := extra) (e := put pretty extra e .name (quote k ++ [58])) rfl
    obtain ⟨t, ⟨⟨q, a1, a2⟩, a3, a4⟩, h2⟩ := write_text x (put pretty extra e .name (quote k ++ [58])) hw0 hn
    have hw1 : Ws (write pretty extra (put pretty extra e .name (quote k ++ [58])) x).indents := by rw [a3, d2]; exact hw0
    obtain ⟨u, ⟨b1, b3, b4⟩, h3⟩ := writeMembers_text k' y ys (write pretty extra (put pretty extra e .name (quote k ++ [58])) x) hw1 hns.1 hns.2
    obtain ⟨w0, c1, c2, c3⟩ := lead_end (pretty := pretty) (extra := extra) hw1 a1 a2
    refine ⟨quote k ++ 58 :: (w1 ++ t ++ 44 :: (w0 ++ u)), ⟨?_, ?_, ?_⟩, ?_⟩
    · rw [writeMembers]; exact b1
    · rw [writeMembers, b3, c2, a3, d2, hi]
    · rw [writeMembers, b4, c3, a4, d3, ho]; simp
    · intro v w hv hw
      have := Text.members hv (chars_flat k) ws_nil d1 h2 ws_nil (h3 w0 w c1 hw)
      simpa [quote] using this
termination_by k x xs => sizeOf ((k, x) :: xs)
decreasing_by all_goals (simp_wf; try omega)
end

/-- The text of a tree. -/
theorem write_top (x : Json) (h : NumsOk x) : Text (.value x) (write pretty extra {} x).out := by
  obtain ⟨t, ⟨-, -, h1⟩, h2⟩ := write_text (pretty := pretty) (extra := extra) x {} ws_nil h
  rw [h1]
  exact h2

end Verif.Jn
