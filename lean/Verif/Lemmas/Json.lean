import Verif.Spec.Json
/-!
# A text in JSON spells one value
-/
namespace Verif.Jn

def isWs (b : UInt8) : Prop := b = 32 ∨ b = 9 ∨ b = 10 ∨ b = 13

theorem ws_split {w w' : Bytes} (hw : Ws w) (hw' : Ws w') {b b' : UInt8} {s s' : Bytes} (hb : ¬ isWs b) (hb' : ¬ isWs b') (h : w ++ b :: s = w' ++ b' :: s') :
    w = w' ∧ b = b' ∧ s = s' := by
  induction w generalizing w' with
  | nil =>
    cases w' with
    | nil => cases h; exact ⟨rfl, rfl, rfl⟩
    | cons c w' => cases h; exact absurd (hw' _ List.mem_cons_self) hb
  | cons a w ih =>
    cases w' with
    | nil => cases h; exact absurd (hw _ List.mem_cons_self) hb'
    | cons c w' =>
      simp only [List.cons_append, List.cons.injEq] at h
      obtain ⟨rfl, h⟩ := h
      obtain ⟨rfl, h2, h3⟩ := ih (fun b hb => hw b (List.mem_cons_of_mem _ hb)) (fun b hb => hw' b (List.mem_cons_of_mem _ hb)) h
      exact ⟨rfl, h2, h3⟩

/-- The letters of numbers. -/
def NumLetter (b : UInt8) : Prop := Un.isDig b = true ∨ b = 43 ∨ b = 45 ∨ b = 46 ∨ b = 101 ∨ b = 69

theorem letters_split {P : UInt8 → Prop} {s s' r r' : Bytes} (hs : ∀ b ∈ s, P b) (hs' : ∀ b ∈ s', P b) (hr : ∀ b, r.head? = some b → ¬ P b)
    (hr' : ∀ b, r'.head? = some b → ¬ P b) (h : s ++ r = s' ++ r') : s = s' ∧ r = r' := by
  induction s generalizing s' with
  | nil =>
    cases s' with
    | nil => exact ⟨rfl, h⟩
    | cons c s' =>
      simp only [List.nil_append, List.cons_append] at h
      exact absurd (hs' c List.mem_cons_self) (hr c (by rw [h]; rfl))
  | cons a s ih =>
    cases s' with
    | nil =>
      simp only [List.nil_append, List.cons_append] at h
      exact absurd (hs a List.mem_cons_self) (hr' a (by rw [← h]; rfl))
    | cons c s' =>
      simp only [List.cons_append, List.cons.injEq] at h
      obtain ⟨rfl, h⟩ := h
      obtain ⟨rfl, h2⟩ := ih (fun b hb => hs b (List.mem_cons_of_mem _ hb)) (fun b hb => hs' b (List.mem_cons_of_mem _ hb)) h
      exact ⟨rfl, h2⟩

theorem number_letters {s : Bytes} (h : Number s) : ∀ b ∈ s, NumLetter b := by
  obtain ⟨sign, int, frac, exp, rfl, h1, ⟨h2, -⟩, h3, h4⟩ := h
  intro b hb
  simp only [List.append_assoc, List.mem_append] at hb
  rcases hb with hb | hb | hb | hb
  · rcases h1 with rfl | rfl
    · cases hb
    · exact .inr (.inr (.inl (List.mem_singleton.1 hb)))
  · exact .inl (h2.2 b hb)
  · rcases h3 with rfl | ⟨ds, rfl, h3⟩
    · cases hb
    · rcases List.mem_cons.1 hb with rfl | hb
      · exact .inr (.inr (.inr (.inl rfl)))
      · exact .inl (h3.2 b hb)
  · rcases h4 with rfl | ⟨e, sg, ds, rfl, h4, h5, h6⟩
    · cases hb
    · simp only [List.cons_append, List.mem_cons, List.mem_append] at hb
      rcases hb with rfl | hb | hb
      · rcases h4 with rfl | rfl
        · exact .inr (.inr (.inr (.inr (.inl rfl))))
        · exact .inr (.inr (.inr (.inr (.inr rfl))))
      · rcases h5 with rfl | rfl | rfl
        · cases hb
        · exact .inr (.inl (List.mem_singleton.1 hb))
        · exact .inr (.inr (.inl (List.mem_singleton.1 hb)))
      · exact .inl (h6.2 b hb)

theorem number_first {s : Bytes} (h : Number s) : ∃ b r, s = b :: r ∧ (Un.isDig b = true ∨ b = 45) := by
  obtain ⟨sign, int, frac, exp, rfl, h1, ⟨h2, -⟩, h3, h4⟩ := h
  rcases h1 with rfl | rfl
  · cases int with
    | nil => exact absurd rfl h2.1
    | cons b r => exact ⟨b, r ++ frac ++ exp, by simp, .inl (h2.2 b List.mem_cons_self)⟩
  · exact ⟨45, int ++ frac ++ exp, by simp, .inr rfl⟩

theorem short_unique : ∀ p ∈ shortEscapes, ∀ q ∈ shortEscapes, p.2 = q.2 → p.1 = q.1 := by decide
theorem short_not_u : ∀ p ∈ shortEscapes, p.2 ≠ 117 := by decide

theorem chars_unique {s c : Bytes} (h : Chars s c) : ∀ {s' c' r r' : Bytes}, Chars s' c' → c ++ 34 :: r = c' ++ 34 :: r' → s = s' ∧ c = c' ∧ r = r' := by
  induction h with
  | nil =>
    intro s' c' r r' h' e
    cases h' with
    | nil => cases e; exact ⟨rfl, rfl, rfl⟩
    | plain h1 h2 h3 h4 => cases e; exact absurd rfl h2
    | short h1 h2 => simp only [List.nil_append, List.cons_append, List.cons.injEq] at e; exact absurd e.1 (by decide)
    | hex h1 h2 h3 h4 h5 h6 => simp only [List.nil_append, List.cons_append, List.cons.injEq] at e; exact absurd e.1 (by decide)
  | plain h1 h2 h3 h4 ih =>
    intro s' c' r r' h' e
    cases h' with
    | nil => cases e; exact absurd rfl h2
    | plain g1 g2 g3 g4 =>
      simp only [List.cons_append, List.cons.injEq] at e
      obtain ⟨rfl, e⟩ := e
      obtain ⟨rfl, rfl, rfl⟩ := ih g4 e
      exact ⟨rfl, rfl, rfl⟩
    | short g1 g2 => simp only [List.cons_append, List.cons.injEq] at e; exact absurd e.1 h3
    | hex g1 g2 g3 g4 g5 g6 => simp only [List.cons_append, List.cons.injEq] at e; exact absurd e.1 h3
  | short h1 h2 ih =>
    intro s' c' r r' h' e
    cases h' with
    | nil => simp only [List.nil_append, List.cons_append, List.cons.injEq] at e; exact absurd e.1 (by decide)
    | plain g1 g2 g3 g4 => simp only [List.cons_append, List.cons.injEq] at e; exact absurd e.1.symm g3
    | short g1 g2 =>
      simp only [List.cons_append, List.cons.injEq, true_and] at e
      obtain ⟨rfl, e⟩ := e
      obtain ⟨rfl, rfl, rfl⟩ := ih g2 e
      have := short_unique _ h1 _ g1 rfl
      simp only at this
      subst this
      exact ⟨rfl, rfl, rfl⟩
    | hex g1 g2 g3 g4 g5 g6 =>
      simp only [List.cons_append, List.cons.injEq, true_and] at e
      exact absurd e.1 (short_not_u _ h1)
  | hex h1 h2 h3 h4 h5 h6 ih =>
    intro s' c' r r' h' e
    cases h' with
    | nil => simp only [List.nil_append, List.cons_append, List.cons.injEq] at e; exact absurd e.1 (by decide)
    | plain g1 g2 g3 g4 => simp only [List.cons_append, List.cons.injEq] at e; exact absurd e.1.symm g3
    | short g1 g2 =>
      simp only [List.cons_append, List.cons.injEq, true_and] at e
      exact absurd e.1.symm (short_not_u _ g1)
    | hex g1 g2 g3 g4 g5 g6 =>
      simp only [List.cons_append, List.cons.injEq, true_and] at e
      obtain ⟨rfl, rfl, rfl, rfl, e⟩ := e
      rw [h1] at g1; rw [h2] at g2; rw [h3] at g3; rw [h4] at g4
      cases g1; cases g2; cases g3; cases g4
      obtain ⟨rfl, rfl, rfl⟩ := ih g6 e
      exact ⟨rfl, rfl, rfl⟩

/-- The first byte of a value tells which value it is. -/
def First : Json → UInt8 → Prop
  | .null, b => b = 110
  | .bool true, b => b = 116
  | .bool false, b => b = 102
  | .num _, b => Un.isDig b = true ∨ b = 45
  | .str _, b => b = 34
  | .arr _, b => b = 91
  | .obj _, b => b = 123

theorem first_of {x : Json} {t : Bytes} (h : Text (.value x) t) : ∃ b r, t = b :: r ∧ First x b := by
  cases h with
  | null => exact ⟨_, _, rfl, rfl⟩
  | tt => exact ⟨_, _, rfl, rfl⟩
  | ff => exact ⟨_, _, rfl, rfl⟩
  | num h => exact number_first h
  | str h => exact ⟨_, _, rfl, rfl⟩
  | noArr h => exact ⟨_, _, rfl, rfl⟩
  | arr h => exact ⟨_, _, rfl, rfl⟩
  | noObj h => exact ⟨_, _, rfl, rfl⟩
  | obj h => exact ⟨_, _, rfl, rfl⟩

theorem first_not {x : Json} {b : UInt8} (h : First x b) : ¬ isWs b ∧ b ≠ 93 ∧ b ≠ 125 ∧ b ≠ 44 := by
  have key : ∀ b : UInt8, (Un.isDig b = true ∨ b = 45) → ¬ isWs b ∧ b ≠ 93 ∧ b ≠ 125 ∧ b ≠ 44 := by
    intro b hb
    rcases hb with hb | rfl
    · refine ⟨?_, ?_, ?_, ?_⟩
      · rintro (rfl | rfl | rfl | rfl) <;> exact absurd hb (by decide)
      all_goals rintro rfl; exact absurd hb (by decide)
    · refine ⟨?_, by decide, by decide, by decide⟩
      unfold isWs; decide
  cases x with
  | num t => exact key b h
  | bool v => cases v <;> (cases h; exact ⟨by unfold isWs; decide, by decide, by decide, by decide⟩)
  | _ => cases h; exact ⟨by unfold isWs; decide, by decide, by decide, by decide⟩

/-- What follows a value does not continue a number. -/
def Stop (r : Bytes) : Prop := ∀ b, r.head? = some b → ¬ NumLetter b

theorem not_letter : ∀ b : UInt8, (b = 44 ∨ b = 93 ∨ b = 125 ∨ isWs b) → ¬ NumLetter b := by
  intro b hb
  unfold NumLetter
  rcases hb with rfl | rfl | rfl | rfl | rfl | rfl | rfl <;> decide

theorem stop_ws {w : Bytes} (hw : Ws w) {b : UInt8} {r : Bytes} (hb : b = 44 ∨ b = 93 ∨ b = 125) : Stop (w ++ b :: r) := by
  intro c hc
  cases w with
  | nil =>
    simp only [List.nil_append, List.head?_cons, Option.some.injEq] at hc
    subst hc
    rcases hb with h | h | h
    · exact not_letter _ (.inl h)
    · exact not_letter _ (.inr (.inl h))
    · exact not_letter _ (.inr (.inr (.inl h)))
  | cons a w =>
    simp only [List.cons_append, List.head?_cons, Option.some.injEq] at hc
    subst hc
    exact not_letter _ (.inr (.inr (.inr (hw _ List.mem_cons_self))))

def Claim : Part → Bytes → Prop
  | .value x, t => ∀ y t' r r', Text (.value y) t' → Stop r → Stop r' → t ++ r = t' ++ r' → x = y ∧ t = t'
  | .elements l, t => ∀ l' t' r r', Text (.elements l') t' → t ++ 93 :: r = t' ++ 93 :: r' → l = l' ∧ t = t'
  | .members l, t => ∀ l' t' r r', Text (.members l') t' → t ++ 125 :: r = t' ++ 125 :: r' → l = l' ∧ t = t'

theorem same_first {x y : Json} {t t' r r' : Bytes} (h : Text (.value x) t) (h' : Text (.value y) t') (e : t ++ r = t' ++ r') : ∃ b, First x b ∧ First y b := by
  obtain ⟨b, s, rfl, hb⟩ := first_of h
  obtain ⟨b', s', rfl, hb'⟩ := first_of h'
  simp only [List.cons_append, List.cons.injEq] at e
  rw [← e.1] at hb'
  exact ⟨b, hb, hb'⟩

/-- Spaces, a value and spaces. -/
theorem padded {x y : Json} {v t w v' t' w' : Bytes} (hv : Ws v) (hv' : Ws v') (hx : Text (.value x) t) (hy : Text (.value y) t') (hw : Ws w) (hw' : Ws w')
    (hc : Claim (.value x) t) {b b' : UInt8} {r r' : Bytes} (hb : b = 44 ∨ b = 93 ∨ b = 125) (hb' : b' = 44 ∨ b' = 93 ∨ b' = 125)
    (e : v ++ t ++ w ++ b :: r = v' ++ t' ++ w' ++ b' :: r') : x = y ∧ v = v' ∧ t = t' ∧ w = w' ∧ b = b' ∧ r = r' := by
  obtain ⟨c, s, hts, hf⟩ := first_of hx
  obtain ⟨c', s', hts', hf'⟩ := first_of hy
  have e1 : v ++ c :: (s ++ (w ++ b :: r)) = v' ++ c' :: (s' ++ (w' ++ b' :: r')) := by
    have := e
    rw [hts, hts'] at this
    simpa only [List.append_assoc, List.cons_append] using this
  obtain ⟨rfl, -, -⟩ := ws_split hv hv' (first_not hf).1 (first_not hf').1 e1
  have e2 : t ++ (w ++ b :: r) = t' ++ (w' ++ b' :: r') := by
    simp only [List.append_assoc, List.append_cancel_left_eq] at e
    exact e
  obtain ⟨rfl, rfl⟩ := hc y t' _ _ hy (stop_ws hw hb) (stop_ws hw' hb') e2
  have e3 := List.append_cancel_left e2
  have nw : ∀ b : UInt8, (b = 44 ∨ b = 93 ∨ b = 125) → ¬ isWs b := by
    rintro b (rfl | rfl | rfl) <;> (unfold isWs; decide)
  obtain ⟨rfl, rfl, rfl⟩ := ws_split hw hw' (nw b hb) (nw b' hb') e3
  exact ⟨rfl, rfl, rfl, rfl, rfl, rfl⟩

/-- Spaces, a name, spaces and a colon. -/
theorem named {k k' u c u' v d v' r r' : Bytes} (hu : Ws u) (hv : Ws v) (hk : Chars k c) (hk' : Chars k' d) (hu' : Ws u') (hv' : Ws v')
    (e : u ++ (34 :: c ++ [34]) ++ u' ++ 58 :: r = v ++ (34 :: d ++ [34]) ++ v' ++ 58 :: r') : k = k' ∧ u = v ∧ c = d ∧ u' = v' ∧ r = r' := by
  simp only [List.append_assoc, List.cons_append, List.nil_append] at e
  obtain ⟨rfl, -, e1⟩ := ws_split hu hv (by unfold isWs; decide) (by unfold isWs; decide) e
  obtain ⟨rfl, rfl, e2⟩ := chars_unique hk hk' e1
  obtain ⟨rfl, -, rfl⟩ := ws_split hu' hv' (by unfold isWs; decide) (by unfold isWs; decide) e2
  exact ⟨rfl, rfl, rfl, rfl, rfl⟩

theorem elements_first {l : List Json} {t r : Bytes} (h : Text (.elements l) t) : ∃ v b s, t ++ r = v ++ b :: s ∧ Ws v ∧ ¬ isWs b ∧ b ≠ 93 := by
  cases h with
  | element hv hx hw =>
    obtain ⟨c, s, rfl, hf⟩ := first_of hx
    rename_i v w
    exact ⟨v, c, s ++ (w ++ r), by simp only [List.append_assoc, List.cons_append], hv, (first_not hf).1, (first_not hf).2.1⟩
  | elements hv hx hw hl =>
    obtain ⟨c, s, rfl, hf⟩ := first_of hx
    rename_i v w r0
    exact ⟨v, c, s ++ (w ++ 44 :: (r0 ++ r)), by simp only [List.append_assoc, List.cons_append], hv, (first_not hf).1, (first_not hf).2.1⟩

theorem members_first {l : List (Bytes × Json)} {t r : Bytes} (h : Text (.members l) t) : ∃ v b s, t ++ r = v ++ b :: s ∧ Ws v ∧ ¬ isWs b ∧ b ≠ 125 := by
  cases h with
  | member hu _ _ _ _ _ =>
    rename_i k x u u' v w c t _ _ _ _ _
    exact ⟨u, 34, c ++ 34 :: (u' ++ 58 :: (v ++ (t ++ (w ++ r)))), by simp, hu, by unfold isWs; decide, by decide⟩
  | members hu _ _ _ _ _ _ =>
    rename_i k x l u u' v w c t r0 _ _ _ _ _ _
    exact ⟨u, 34, c ++ 34 :: (u' ++ 58 :: (v ++ (t ++ (w ++ 44 :: (r0 ++ r))))), by simp, hu, by unfold isWs; decide, by decide⟩

theorem claim {p : Part} {t : Bytes} (h : Text p t) : Claim p t := by
  have bad : ∀ {x y : Json} {b : UInt8}, First x b → First y b → (match x, y with
      | .null, .null => True | .bool a, .bool c => a = c | .num _, .num _ => True | .str _, .str _ => True | .arr _, .arr _ => True | .obj _, .obj _ => True | _, _ => False) := by
    intro x y b h h'
    cases x <;> cases y <;> first
      | trivial
      | (rename_i a c; cases a <;> cases c <;> first | rfl | (simp only [First] at h h'; subst h; exact absurd h' (by decide)))
      | (rename_i a; cases a <;> (simp only [First] at h h'; first | (subst h; exact absurd h' (by decide)) | (subst h'; exact absurd h (by decide))))
      | (simp only [First] at h h'; first | (subst h; exact absurd h' (by decide)) | (subst h'; exact absurd h (by decide)))
  induction h with
  | null =>
    intro y t' r r' h' s1 s2 e
    obtain ⟨b, f1, f2⟩ := same_first .null h' e
    have := bad f1 f2
    cases h' <;> first | exact ⟨rfl, rfl⟩ | exact this.elim
  | tt =>
    intro y t' r r' h' s1 s2 e
    obtain ⟨b, f1, f2⟩ := same_first .tt h' e
    have := bad f1 f2
    cases h' <;> first | exact ⟨rfl, rfl⟩ | exact this.elim | cases this
  | ff =>
    intro y t' r r' h' s1 s2 e
    obtain ⟨b, f1, f2⟩ := same_first .ff h' e
    have := bad f1 f2
    cases h' <;> first | exact ⟨rfl, rfl⟩ | exact this.elim | cases this
  | num hn =>
    intro y t' r r' h' s1 s2 e
    obtain ⟨b, f1, f2⟩ := same_first (.num hn) h' e
    have := bad f1 f2
    cases h' with
    | num hn' =>
      obtain ⟨rfl, -⟩ := letters_split (number_letters hn) (number_letters hn') s1 s2 e
      exact ⟨rfl, rfl⟩
    | _ => exact this.elim
  | str hc =>
    intro y t' r r' h' s1 s2 e
    obtain ⟨b, f1, f2⟩ := same_first (.str hc) h' e
    have := bad f1 f2
    cases h' with
    | str hc' =>
      simp only [List.append_assoc, List.cons_append, List.nil_append, List.cons.injEq, true_and] at e
      obtain ⟨rfl, rfl, -⟩ := chars_unique hc hc' e
      exact ⟨rfl, rfl⟩
    | _ => exact this.elim
  | noArr hw =>
    intro y t' r r' h' s1 s2 e
    obtain ⟨b, f1, f2⟩ := same_first (.noArr hw) h' e
    have := bad f1 f2
    cases h' with
    | noArr hw' =>
      simp only [List.append_assoc, List.cons_append, List.nil_append, List.cons.injEq, true_and] at e
      obtain ⟨rfl, -, -⟩ := ws_split hw hw' (by unfold isWs; decide) (by unfold isWs; decide) e
      exact ⟨rfl, rfl⟩
    | arr hl =>
      simp only [List.append_assoc, List.cons_append, List.nil_append, List.cons.injEq, true_and] at e
      obtain ⟨v, c, s, e', hv, hc, hne⟩ := elements_first (r := 93 :: r') hl
      rw [e'] at e
      obtain ⟨-, h2, -⟩ := ws_split hw hv (by unfold isWs; decide) hc e
      exact absurd h2.symm hne
    | _ => exact this.elim
  | arr hl ih =>
    intro y t' r r' h' s1 s2 e
    obtain ⟨b, f1, f2⟩ := same_first (.arr hl) h' e
    have := bad f1 f2
    cases h' with
    | noArr hw' =>
      simp only [List.append_assoc, List.cons_append, List.nil_append, List.cons.injEq, true_and] at e
      obtain ⟨v, c, s, e', hv, hc, hne⟩ := elements_first (r := 93 :: r) hl
      rw [e'] at e
      obtain ⟨-, h2, -⟩ := ws_split hv hw' hc (by unfold isWs; decide) e
      exact absurd h2 hne
    | arr hl' =>
      simp only [List.append_assoc, List.cons_append, List.nil_append, List.cons.injEq, true_and] at e
      obtain ⟨rfl, rfl⟩ := ih _ _ _ _ hl' e
      exact ⟨rfl, rfl⟩
    | _ => exact this.elim
  | noObj hw =>
    intro y t' r r' h' s1 s2 e
    obtain ⟨b, f1, f2⟩ := same_first (.noObj hw) h' e
    have := bad f1 f2
    cases h' with
    | noObj hw' =>
      simp only [List.append_assoc, List.cons_append, List.nil_append, List.cons.injEq, true_and] at e
      obtain ⟨rfl, -, -⟩ := ws_split hw hw' (by unfold isWs; decide) (by unfold isWs; decide) e
      exact ⟨rfl, rfl⟩
    | obj hl =>
      simp only [List.append_assoc, List.cons_append, List.nil_append, List.cons.injEq, true_and] at e
      obtain ⟨v, c, s, e', hv, hc, hne⟩ := members_first (r := 125 :: r') hl
      rw [e'] at e
      obtain ⟨-, h2, -⟩ := ws_split hw hv (by unfold isWs; decide) hc e
      exact absurd h2.symm hne
    | _ => exact this.elim
  | obj hl ih =>
    intro y t' r r' h' s1 s2 e
    obtain ⟨b, f1, f2⟩ := same_first (.obj hl) h' e
    have := bad f1 f2
    cases h' with
    | noObj hw' =>
      simp only [List.append_assoc, List.cons_append, List.nil_append, List.cons.injEq, true_and] at e
      obtain ⟨v, c, s, e', hv, hc, hne⟩ := members_first (r := 125 :: r) hl
      rw [e'] at e
      obtain ⟨-, h2, -⟩ := ws_split hv hw' hc (by unfold isWs; decide) e
      exact absurd h2 hne
    | obj hl' =>
      simp only [List.append_assoc, List.cons_append, List.nil_append, List.cons.injEq, true_and] at e
      obtain ⟨rfl, rfl⟩ := ih _ _ _ _ hl' e
      exact ⟨rfl, rfl⟩
    | _ => exact this.elim
  | element hv hx hw ih =>
    intro l' t' r r' h' e
    cases h' with
    | element hv' hx' hw' =>
      obtain ⟨rfl, rfl, rfl, rfl, -, -⟩ := padded hv hv' hx hx' hw hw' ih (.inr (.inl rfl)) (.inr (.inl rfl)) e
      exact ⟨rfl, rfl⟩
    | elements hv' hx' hw' hl' =>
      rename_i r0
      have e' := e
      rw [List.append_assoc (_ ++ _ ++ _) (44 :: r0)] at e'
      obtain ⟨-, -, -, -, h, -⟩ := padded hv hv' hx hx' hw hw' ih (.inr (.inl rfl)) (.inl rfl) e'
      exact absurd h (by decide)
  | elements hv hx hw hl ih ih2 =>
    intro l' t' r r' h' e
    rename_i r0
    rw [List.append_assoc (_ ++ _ ++ _) (44 :: r0)] at e
    cases h' with
    | element hv' hx' hw' =>
      obtain ⟨-, -, -, -, h, -⟩ := padded hv hv' hx hx' hw hw' ih (.inl rfl) (.inr (.inl rfl)) e
      exact absurd h (by decide)
    | elements hv' hx' hw' hl' =>
      rename_i r0'
      rw [List.append_assoc (_ ++ _ ++ _) (44 :: r0')] at e
      obtain ⟨rfl, rfl, rfl, rfl, -, e⟩ := padded hv hv' hx hx' hw hw' ih (.inl rfl) (.inl rfl) e
      obtain ⟨rfl, rfl⟩ := ih2 _ _ _ _ hl' e
      exact ⟨rfl, rfl⟩
  | member hu hk hu' hv hx hw ih =>
    intro l' t' r r' h' e
    cases h' with
    | member gu gk gu' gv gx gw =>
      rw [List.append_assoc, List.append_assoc] at e
      obtain ⟨rfl, rfl, rfl, rfl, e2⟩ := named hu gu hk gk hu' gu' (by simpa only [List.append_assoc, List.cons_append] using e)
      obtain ⟨rfl, rfl, rfl, rfl, -, -⟩ := padded hv gv hx gx hw gw ih (.inr (.inr rfl)) (.inr (.inr rfl)) (by simpa only [List.append_assoc, List.cons_append] using e2)
      exact ⟨rfl, rfl⟩
    | members gu gk gu' gv gx gw gl =>
      obtain ⟨rfl, rfl, rfl, rfl, e2⟩ := named hu gu hk gk hu' gu' (by simpa only [List.append_assoc, List.cons_append] using e)
      obtain ⟨-, -, -, -, h, -⟩ := padded hv gv hx gx hw gw ih (.inr (.inr rfl)) (.inl rfl) (by simpa only [List.append_assoc, List.cons_append] using e2)
      exact absurd h (by decide)
  | members hu hk hu' hv hx hw hl ih ih2 =>
    intro l' t' r r' h' e
    cases h' with
    | member gu gk gu' gv gx gw =>
      obtain ⟨rfl, rfl, rfl, rfl, e2⟩ := named hu gu hk gk hu' gu' (by simpa only [List.append_assoc, List.cons_append] using e)
      obtain ⟨-, -, -, -, h, -⟩ := padded hv gv hx gx hw gw ih (.inl rfl) (.inr (.inr rfl)) (by simpa only [List.append_assoc, List.cons_append] using e2)
      exact absurd h (by decide)
    | members gu gk gu' gv gx gw gl =>
      obtain ⟨rfl, rfl, rfl, rfl, e2⟩ := named hu gu hk gk hu' gu' (by simpa only [List.append_assoc, List.cons_append] using e)
      obtain ⟨rfl, rfl, rfl, rfl, -, e3⟩ := padded hv gv hx gx hw gw ih (.inl rfl) (.inl rfl) (by simpa only [List.append_assoc, List.cons_append] using e2)
      obtain ⟨rfl, rfl⟩ := ih2 _ _ _ _ gl e3
      exact ⟨rfl, rfl⟩

/-- A text spells one value. -/
theorem text_unique {x y : Json} {t : Bytes} (h : Text (.value x) t) (h' : Text (.value y) t) : x = y :=
  (claim h y t [] [] h' nofun nofun rfl).1

end Verif.Jn
