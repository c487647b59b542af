import Verif.Props.Json
import Verif.Lemmas.WireDecode3
/-!
# C100: nothing of the metrics is lost in JSON
-/
namespace Verif.Jn
open Pb (Val Kind Field otlp Fits InOrder)

/-! ## Numbers -/

theorem natText_inj {m n : Nat} {s : Bytes} (h : NatText m s) (h' : NatText n s) : m = n := h.2.2.2.symm.trans h'.2.2.2

theorem intText_inj {i j : Int} {s : Bytes} (h : IntText i s) (h' : IntText j s) : i = j := by
  have no : ∀ {n : Nat} {t : Bytes}, ¬ NatText n (45 :: t) := fun h => absurd (h.2.1 45 List.mem_cons_self).1 (by decide)
  rcases h with ⟨h1, h2⟩ | ⟨h1, t, rfl, h2⟩
  · rcases h' with ⟨g1, g2⟩ | ⟨g1, u, rfl, g2⟩
    · have := natText_inj h2 g2; omega
    · exact absurd h2 no
  · rcases h' with ⟨g1, g2⟩ | ⟨g1, u, e, g2⟩
    · exact absurd g2 no
    · cases e
      have := natText_inj h2 g2; omega

theorem complement_inj {k m n : Nat} {i : Int} (h : TwosComplement k m i) (h' : TwosComplement k n i) : m = n := by
  have := h.2.2.symm.trans h'.2.2
  exact_mod_cast this

theorem number_same {k : Kind} {ty : Ty} (hg : good k ty = true) {m n : Nat} (hm : m < k.range) (hn : n < k.range) {x : Json} (h : NumberShows ty m x)
    (h' : NumberShows ty n x) : Same ty (.num m) (.num n) := by
  have of : m = n → Same ty (.num m) (.num n) := by rintro rfl; exact .num
  have inf : ∀ {m n : Nat}, m < 2 ^ 64 → n < 2 ^ 64 → ¬ Fp.Finite m → ¬ Fp.Finite n → ¬ Fp.IsNaN m → ¬ Fp.IsNaN n → Fp.negative m = Fp.negative n → m = n := by
    intro m n hm hn f1 f2 n1 n2 hs
    have e1 : Fp.expBits m = 2047 := by by_contra h; exact f1 ((Fp.finite_iff m).2 h)
    have e2 : Fp.expBits n = 2047 := by by_contra h; exact f2 ((Fp.finite_iff n).2 h)
    refine Fp.fraction_unique hm hn (by rw [Fp.negative_eq, Fp.negative_eq, hs]) (by rw [e1, e2]) ?_
    have z1 : Fp.ieeeFrac m = 0 := by by_contra h; exact n1 ⟨by rw [← Fp.expBits_eq]; exact e1, h⟩
    have z2 : Fp.ieeeFrac n = 0 := by by_contra h; exact n2 ⟨by rw [← Fp.expBits_eq]; exact e2, h⟩
    rw [Fp.fracBits_eq, Fp.fracBits_eq, z1, z2]
  have r64 : ty = .double → m < 2 ^ 64 ∧ n < 2 ^ 64 := by
    rintro rfl
    cases k <;> first | exact absurd hg Bool.false_ne_true | exact ⟨hm, hn⟩
  have rb : ty = .bool → m < 2 ∧ n < 2 := by
    rintro rfl
    cases k <;> first | exact absurd hg Bool.false_ne_true | exact ⟨hm, hn⟩
  generalize hx : x = y at h'
  cases h with
  | bool =>
    cases h' with
    | bool =>
      injection hx with hx
      obtain ⟨h1, h2⟩ := rb rfl
      rw [decide_eq_decide] at hx
      exact of (by omega)
  | i32 a b => cases h' with | i32 c d => injection hx with hx; subst hx; cases intText_inj b d; exact of (complement_inj a c)
  | u32 a => cases h' with | u32 b => injection hx with hx; subst hx; exact of (natText_inj a b)
  | u64 a => cases h' with | u64 b => injection hx with hx; subst hx; exact of (natText_inj a b)
  | i64 a b => cases h' with | i64 c d => injection hx with hx; subst hx; cases intText_inj b d; exact of (complement_inj a c)
  | double f1 r1 q1 =>
    cases h' with
    | double f2 r2 q2 =>
      injection hx with hx; subst hx
      rw [r1] at r2
      simp only [Option.some.injEq, Prod.mk.injEq] at r2
      obtain ⟨hs, rfl⟩ := r2
      obtain ⟨h1, h2⟩ := r64 rfl
      exact of (Fp.bits_unique h1 h2 (by rw [Fp.negative_eq, Fp.negative_eq, hs]) (Fp.reads_unique q1 q2))
    | nan _ => cases hx
    | infinity _ _ _ => cases hx
    | minusInfinity _ _ _ => cases hx
  | nan a =>
    cases h' with
    | double _ _ _ => cases hx
    | nan b => exact .nan a b
    | infinity _ _ _ => injection hx with hx; exact absurd hx (by decide)
    | minusInfinity _ _ _ => injection hx with hx; exact absurd hx (by decide)
  | infinity f1 n1 s1 =>
    cases h' with
    | double _ _ _ => cases hx
    | nan b => injection hx with hx; exact absurd hx (by decide)
    | infinity f2 n2 s2 => exact of (inf (r64 rfl).1 (r64 rfl).2 f1 f2 n1 n2 (by rw [s1, s2]))
    | minusInfinity _ _ _ => injection hx with hx; exact absurd hx (by decide)
  | minusInfinity f1 n1 s1 =>
    cases h' with
    | double _ _ _ => cases hx
    | nan b => injection hx with hx; exact absurd hx (by decide)
    | infinity _ _ _ => injection hx with hx; exact absurd hx (by decide)
    | minusInfinity f2 n2 s2 => exact of (inf (r64 rfl).1 (r64 rfl).2 f1 f2 n1 n2 (by rw [s1, s2]))
  | unspecified =>
    cases h' with
    | unspecified => exact .num
    | other _ _ _ => cases hx
    | _ => injection hx with hx; exact absurd hx (by decide)
  | delta =>
    cases h' with
    | delta => exact .num
    | other _ _ _ => cases hx
    | _ => injection hx with hx; exact absurd hx (by decide)
  | cumulative =>
    cases h' with
    | cumulative => exact .num
    | other _ _ _ => cases hx
    | _ => injection hx with hx; exact absurd hx (by decide)
  | other l a b =>
    cases h' with
    | other l' c d => injection hx with hx; subst hx; cases intText_inj b d; exact of (complement_inj a c)
    | _ => cases hx

/-! ## Bytes -/

theorem fromDigits_inj {base : Nat} : ∀ {l m : List Nat}, (∀ x ∈ l, x < base) → (∀ x ∈ m, x < base) → l.length = m.length → fromDigits base l = fromDigits base m → l = m
  | [], [], _, _, _, _ => rfl
  | x :: l, y :: m, hl, hm, hn, h => by
    have hn' : l.length = m.length := by simpa using hn
    have small : ∀ {l : List Nat}, (∀ x ∈ l, x < base) → fromDigits base l < base ^ l.length := by
      intro l
      induction l with
      | nil => intro _; simp [fromDigits]
      | cons x l ih =>
        intro h
        have h1 := ih fun y hy => h y (List.mem_cons_of_mem _ hy)
        have h2 := h x List.mem_cons_self
        rw [show x :: l = [x] ++ l from rfl, fromDigits_append]
        have : fromDigits base [x] = x := by simp [fromDigits]
        rw [this, List.length_append, List.length_singleton, pow_add, pow_one]
        calc x * base ^ l.length + fromDigits base l < x * base ^ l.length + base ^ l.length := by omega
          _ = (x + 1) * base ^ l.length := by ring
          _ ≤ base * base ^ l.length := Nat.mul_le_mul_right _ h2
    rw [show x :: l = [x] ++ l from rfl, show y :: m = [y] ++ m from rfl, fromDigits_append, fromDigits_append, ← hn'] at h
    have e : ∀ z, fromDigits base [z] = z := fun z => by simp [fromDigits]
    rw [e, e] at h
    have s1 := small fun z hz => hl z (List.mem_cons_of_mem _ hz)
    have s2 := small fun z hz => hm z (List.mem_cons_of_mem _ hz)
    rw [← hn'] at s2
    have hp : 0 < base ^ l.length := by omega
    have hxy : x = y := by
      have a : (x * base ^ l.length + fromDigits base l) / base ^ l.length = x := by
        rw [mul_comm, Nat.mul_add_div hp, Nat.div_eq_of_lt s1, add_zero]
      have b : (y * base ^ l.length + fromDigits base m) / base ^ l.length = y := by
        rw [mul_comm, Nat.mul_add_div hp, Nat.div_eq_of_lt s2, add_zero]
      rw [← a, h, b]
    subst hxy
    rw [fromDigits_inj (fun z hz => hl z (List.mem_cons_of_mem _ hz)) (fun z hz => hm z (List.mem_cons_of_mem _ hz)) hn' (by omega)]

theorem alphabet_inj : ∀ i : Fin 64, ∀ j : Fin 64, alphabet[i.1]? = alphabet[j.1]? → i = j := by decide +kernel
theorem alphabet_pad : ∀ i : Fin 64, alphabet[i.1]? ≠ some 61 := by decide +kernel

theorem groups_lt {groups : List Nat} {letters : Bytes} (h : groups.map (alphabet[·]?) = letters.map some) : ∀ x ∈ groups, x < 64 := by
  intro x hx
  have : alphabet[x]? ∈ letters.map some := by rw [← h]; exact List.mem_map.2 ⟨x, hx, rfl⟩
  obtain ⟨b, -, hb⟩ := List.mem_map.1 this
  have hl := (List.getElem?_eq_some_iff.1 hb.symm).1
  have : alphabet.length = 64 := by decide
  omega

theorem letters_ne {groups : List Nat} {letters : Bytes} (h : groups.map (alphabet[·]?) = letters.map some) : ∀ b ∈ letters, b ≠ 61 := by
  rintro b hb rfl
  have : some 61 ∈ groups.map (alphabet[·]?) := by rw [h]; exact List.mem_map.2 ⟨_, hb, rfl⟩
  obtain ⟨x, hx, hx'⟩ := List.mem_map.1 this
  exact alphabet_pad ⟨x, groups_lt h x hx⟩ hx'

theorem groups_inj : ∀ {l m : List Nat}, (∀ x ∈ l, x < 64) → (∀ x ∈ m, x < 64) → l.map (alphabet[·]?) = m.map (alphabet[·]?) → l = m
  | [], [], _, _, _ => rfl
  | x :: l, y :: m, hl, hm, h => by
    simp only [List.map_cons, List.cons.injEq] at h
    have := alphabet_inj ⟨x, hl x List.mem_cons_self⟩ ⟨y, hm y List.mem_cons_self⟩ h.1
    simp only [Fin.mk.injEq] at this
    rw [this, groups_inj (fun z hz => hl z (List.mem_cons_of_mem _ hz)) (fun z hz => hm z (List.mem_cons_of_mem _ hz)) h.2]

theorem base64_inj {b c s : Bytes} (h : Base64 b s) (h' : Base64 c s) : b = c := by
  obtain ⟨g, l, k, h1, h2, -, -, h5, h6, h7⟩ := h
  obtain ⟨g', l', k', f1, f2, -, -, f5, f6, f7⟩ := h'
  rw [h2] at f2
  have pad : ∀ (k : Nat) (b : UInt8), (List.replicate k (61 : UInt8)).head? = some b → ¬ b ≠ 61 := by
    intro k b hb
    cases k with
    | zero => exact absurd hb (by simp)
    | succ k => simp only [List.replicate_succ, List.head?_cons, Option.some.injEq] at hb; simp [← hb]
  obtain ⟨rfl, -⟩ := letters_split (P := fun b => b ≠ 61) (letters_ne h1) (letters_ne f1) (pad k) (pad k') f2
  have := groups_inj (groups_lt h1) (groups_lt f1) (h1.trans f1.symm)
  subst this
  have hn : b.length = c.length := by omega
  rw [hn, f7] at h7
  have hv := Nat.eq_of_mul_eq_mul_right (by positivity) h7
  have hlt : ∀ b : Bytes, ∀ x ∈ b.map UInt8.toNat, x < 256 := by
    intro b x hx
    obtain ⟨y, -, rfl⟩ := List.mem_map.1 hx
    exact y.toNat_lt
  have := fromDigits_inj (hlt c) (hlt b) (by simp [hn]) hv
  exact (List.map_injective_iff.2 (fun x y h => UInt8.toNat_inj.1 h) this).symm

/-! ## Fields -/

/-- The numbers of the fields that are set, without their values. -/
def bare (fs : List (Nat × Val)) : List (Nat × Val) := fs.map fun e => (e.1, .num 0)

theorem values_bare (fs : List (Nat × Val)) (n : Nat) : Pb.valuesOf n (bare fs) = List.replicate (valuesOf fs n).length (.num 0) := by
  induction fs with
  | nil => rfl
  | cons e r ih =>
    unfold Pb.valuesOf bare valuesOf at ih ⊢
    by_cases h : e.1 = n
    · simp only [List.map_cons, List.filter_cons, h, decide_true, if_true, List.filterMap_cons, List.length_cons, List.replicate_succ]
      rw [ih]
    · simp only [List.map_cons, List.filter_cons, h, decide_false, if_false, List.filterMap_cons, Bool.false_eq_true]
      rw [ih]

theorem fields_same {d d' t : Nat} {fs gs : List (Nat × Val)} (h : Pb.FieldsOk otlp d t fs) (h' : Pb.FieldsOk otlp d' t gs)
    (hn : ∀ f ∈ otlp t, (valuesOf fs f.num).length = (valuesOf gs f.num).length) : fs.map (·.1) = gs.map (·.1) := by
  have key : ∀ {d : Nat} {fs : List (Nat × Val)}, Pb.FieldsOk otlp d t fs → Pb.Sorted otlp t (bare fs) ∧ ∀ e ∈ bare fs, ∃ f ∈ otlp t, f.num = e.1 := by
    intro d fs h
    refine ⟨List.pairwise_map.2 (Pb.sorted_of Pb.otlp_proper h), ?_⟩
    intro e he
    obtain ⟨e', he', rfl⟩ := List.mem_map.1 he
    obtain ⟨f, h1, h2, -⟩ := h.1 e' he'
    exact ⟨f, h1, h2⟩
  have := Pb.fields_inj Pb.otlp_proper (key h).1 (key h').1 (key h).2 (key h').2 (fun f hf => by rw [values_bare, values_bare, hn f hf])
  have := congrArg (List.map Prod.fst) this
  simpa [bare, Function.comp_def] using this

theorem place_same : ∀ {fs gs : List (Nat × Val)}, fs.map (·.1) = gs.map (·.1) → ∀ (i n : Nat) (v w : Val), fs[i]? = some (n, v) → gs[i]? = some (n, w) →
    ∃ j : Nat, (valuesOf fs n)[j]? = some v ∧ (valuesOf gs n)[j]? = some w
  | [], [], _, i, n, v, w, h, _ => by simp at h
  | e :: fs, g :: gs, h, i, n, v, w, h1, h2 => by
    simp only [List.map_cons, List.cons.injEq] at h
    cases i with
    | zero =>
      simp only [List.getElem?_cons_zero, Option.some.injEq] at h1 h2
      subst h1 h2
      exact ⟨0, by simp [valuesOf], by simp [valuesOf]⟩
    | succ i =>
      simp only [List.getElem?_cons_succ] at h1 h2
      obtain ⟨j, a, b⟩ := place_same h.2 i n v w h1 h2
      by_cases he : e.1 = n
      · refine ⟨j + 1, ?_, ?_⟩
        · rw [show valuesOf (e :: fs) n = e.2 :: valuesOf fs n by simp [valuesOf, he], List.getElem?_cons_succ]; exact a
        · rw [show valuesOf (g :: gs) n = g.2 :: valuesOf gs n by simp [valuesOf, ← h.1, he], List.getElem?_cons_succ]; exact b
      · refine ⟨j, ?_, ?_⟩
        · rw [show valuesOf (e :: fs) n = valuesOf fs n by simp [valuesOf, he]]; exact a
        · rw [show valuesOf (g :: gs) n = valuesOf gs n by simp [valuesOf, ← h.1, he]]; exact b

/-! ## Values -/

/-- What the same object shows is the same. -/
theorem object_same {d d' t : Nat} (ht : t ∈ messages) {fs gs : List (Nat × Val)} {u u' : Bytes} (h : Pb.FieldsOk otlp d t fs) (h' : Pb.FieldsOk otlp d' t gs) {x : Json}
    (hs : Shows (.msg t) (.msg fs u) x) (hs' : Shows (.msg t) (.msg gs u') x)
    (ih : ∀ f ∈ decls t, ∀ v w y, v ∈ valuesOf fs f.num → w ∈ valuesOf gs f.num → Shows f.ty v y → Shows f.ty w y → Same f.ty v w) : Same (.msg t) (.msg fs u) (.msg gs u') := by
  cases hs with
  | msg n1 s1 a1 b1 =>
    rename_i l
    cases hs' with
    | msg n2 s2 a2 b2 =>
      have half : ∀ {fs gs : List (Nat × Val)}, l.map (·.1) = ((decls t).filter fun f => !(valuesOf fs f.num).isEmpty).map (·.name) →
          l.map (·.1) = ((decls t).filter fun f => !(valuesOf gs f.num).isEmpty).map (·.name) → ∀ f ∈ decls t, valuesOf fs f.num ≠ [] →
          valuesOf gs f.num ≠ [] ∧ ∃ x, (f.name, x) ∈ l := by
        intro fs gs n1 n2 f hf hne
        have hmem : f.name ∈ l.map (·.1) := by
          rw [n1]
          exact List.mem_map.2 ⟨f, List.mem_filter.2 ⟨hf, by simpa using hne⟩, rfl⟩
        have hmem' := hmem
        rw [n2] at hmem'
        obtain ⟨g, hg, hgn⟩ := List.mem_map.1 hmem'
        obtain ⟨hg, hne'⟩ := List.mem_filter.1 hg
        have := decls_names t ht g hg f hf hgn
        subst this
        obtain ⟨⟨k, x⟩, hx, e⟩ := List.mem_map.1 hmem
        dsimp only at e
        subst e
        exact ⟨by simpa using hne', x, hx⟩
      have field : ∀ f ∈ decls t, (valuesOf fs f.num).length = (valuesOf gs f.num).length ∧
          ∀ (j : Nat) (v w : Val), (valuesOf fs f.num)[j]? = some v → (valuesOf gs f.num)[j]? = some w → Same f.ty v w := by
        intro f hf
        by_cases hne : valuesOf fs f.num = []
        · have hne' : valuesOf gs f.num = [] := by
            by_contra h
            exact (half n2 n1 f hf h).1 hne
          rw [hne, hne']
          exact ⟨rfl, fun j v w hv => absurd hv (by simp)⟩
        · obtain ⟨hne', x, hx⟩ := half n1 n2 f hf hne
          cases hl : f.list with
          | true =>
            obtain ⟨js, rfl, c1⟩ := a1 f hf hl x hx
            obtain ⟨js', e, c2⟩ := a2 f hf hl _ hx
            cases e
            refine ⟨c1.symm.trans c2, fun j v w hv hw => ?_⟩
            have hj : j < js.length := by rw [c1]; exact (List.getElem?_eq_some_iff.1 hv).1
            have hy := List.getElem?_eq_getElem hj
            exact ih f hf v w _ (List.mem_of_getElem? hv) (List.mem_of_getElem? hw) (b1 f hf hl js hx j v _ hv hy) (b2 f hf hl js hx j w _ hw hy)
          | false =>
            have once : ∀ {d : Nat} {fs : List (Nat × Val)}, Pb.FieldsOk otlp d t fs → valuesOf fs f.num ≠ [] → ∃ v, valuesOf fs f.num = [v] := by
              intro d fs h hne
              obtain ⟨v, vs, e⟩ := List.exists_cons_of_ne_nil hne
              refine ⟨v, ?_⟩
              rw [e, single h.2 (n := f.num) ?_ v vs e]
              intro g hg hn hc
              obtain ⟨f', h3, h4, -, h6⟩ := table t ht g hg
              have := decls_nums t ht f' h3 f hf (h4.trans hn)
              rw [this, hl] at h6
              exact absurd (h6.2 hc) (by decide)
            obtain ⟨v, ev⟩ := once h hne
            obtain ⟨w, ew⟩ := once h' hne'
            have := ih f hf v w x (by simp [ev]) (by simp [ew]) (s1 f hf hl x hx v (by simp [ev])) (s2 f hf hl x hx w (by simp [ew]))
            rw [ev, ew]
            refine ⟨rfl, fun j v' w' hv hw => ?_⟩
            cases j with
            | zero =>
              simp only [List.getElem?_cons_zero, Option.some.injEq] at hv hw
              rw [← hv, ← hw]
              exact this
            | succ j => exact absurd hv (by simp)
      have hfst := fields_same h h' (fun F hF => by
        obtain ⟨f, h3, h4, -⟩ := table t ht F hF
        have := (field f h3).1
        rwa [h4] at this)
      refine .msg hfst fun f hf i v w hv hw => ?_
      obtain ⟨j, a, b⟩ := place_same hfst i f.num v w hv hw
      exact (field f hf).2 j v w a b

/-- The type of a value of a field. -/
theorem value_type {d t : Nat} (ht : t ∈ messages) {fs : List (Nat × Val)} (h : Pb.FieldsOk otlp d t fs) {f : Decl} (hf : f ∈ decls t) {v : Val} (hv : v ∈ valuesOf fs f.num) :
    ∃ F ∈ otlp t, F.num = f.num ∧ Fits otlp d F.kind v ∧ good F.kind f.ty = true ∧ inside F.kind = true := by
  obtain ⟨F, h1, h2, -, h3⟩ := h.1 _ (mem_valuesOf.1 hv)
  obtain ⟨g, g1, g2, g3, -⟩ := table t ht F h1
  have := decls_nums t ht g g1 f hf (g2.trans h2)
  subst this
  exact ⟨F, h1, h2, h3, g3, decls_closed t ht F h1⟩

mutual
theorem same_of_shows : ∀ (v : Val) (d d' : Nat) (k : Kind) (ty : Ty) (w : Val) (x : Json), Fits otlp d k v → Fits otlp d' k w → good k ty = true → inside k = true →
    Shows ty v x → Shows ty w x → Same ty v w
  | .num n, d, d', k, ty, w, x, h, h', hg, _, hs, hs' => by
    have h : n < k.range := by cases d <;> cases k <;> exact h
    cases hs with
    | num hn =>
      cases hs' with
      | num hn' =>
        rename_i m
        have h' : m < k.range := by cases d' <;> cases k <;> exact h'
        exact number_same hg h h' hn hn'
      | str => cases k <;> first | exact absurd hg Bool.false_ne_true | exact absurd h (Nat.not_lt_zero _)
      | bytes _ => cases k <;> first | exact absurd hg Bool.false_ne_true | exact absurd h (Nat.not_lt_zero _)
      | nums _ => generalize hj : Json.arr _ = j at hn; cases hn <;> cases hj
      | msg _ _ _ _ => generalize hj : Json.obj _ = j at hn; cases hn
  | .bytes b, d, d', k, ty, w, x, h, h', hg, _, hs, hs' => by
    have hk : k.range = 0 := by cases k <;> first | rfl | (cases d <;> exact absurd h (by simp [Fits]))
    cases hs with
    | str =>
      cases hs' with
      | num _ =>
        rename_i m _
        have h' : m < k.range := by cases d' <;> cases k <;> exact h'
        omega
      | str => exact .bytes
    | bytes hb =>
      cases hs' with
      | num _ =>
        rename_i m _
        have h' : m < k.range := by cases d' <;> cases k <;> exact h'
        omega
      | bytes hb' => rw [base64_inj hb hb']; exact .bytes
  | .nums l, d, d', k, ty, w, x, h, h', hg, _, hs, hs' => by
    have h : ∀ n ∈ l, n < k.range := by cases d <;> cases k <;> exact h.2
    cases hs with
    | nums hn =>
      cases hs' with
      | num hn' => generalize hj : Json.arr _ = j at hn'; cases hn' <;> cases hj
      | nums hn' =>
        rename_i m
        have h' : ∀ n ∈ m, n < k.range := by cases d' <;> cases k <;> exact h'.2
        refine .nums (hn.length_eq.trans hn'.length_eq.symm) fun i a b ha hb => ?_
        obtain ⟨la, ea⟩ := List.getElem?_eq_some_iff.1 ha
        obtain ⟨lb, eb⟩ := List.getElem?_eq_some_iff.1 hb
        have p := (List.forall₂_iff_get.1 hn).2 i la (by rw [← hn.length_eq]; exact la)
        have q := (List.forall₂_iff_get.1 hn').2 i lb (by rw [← hn'.length_eq]; exact lb)
        simp only [List.get_eq_getElem, ea, eb] at p q
        exact number_same hg (h a (List.mem_of_getElem? ha)) (h' b (List.mem_of_getElem? hb)) p q
  | .msg fs u, d, d', k, ty, w, x, h, h', hg, hi, hs, hs' => by
    cases k with
    | msg t =>
      cases hs with
      | msg n1 s1 a1 b1 =>
        rename_i t' l
        have : t = t' := by simpa [good] using hg
        subst this
        have ht : t ∈ messages := by simpa [inside] using hi
        cases hs' with
        | num hn' => generalize hj : Json.obj _ = j at hn'; cases hn'
        | msg n2 s2 a2 b2 =>
          rename_i gs u'
          cases d with
          | zero => exact absurd h (by simp [Fits])
          | succ d =>
            cases d' with
            | zero => exact absurd h' (by simp [Fits])
            | succ d' =>
              have h := (Pb.fits_msg.1 h).1
              have h' := (Pb.fits_msg.1 h').1
              refine object_same ht h h' (.msg n1 s1 a1 b1) (.msg n2 s2 a2 b2) fun f hf v w y hv hw hy hy' => ?_
              obtain ⟨F, F1, F2, F3, F4, F5⟩ := value_type ht h hf hv
              obtain ⟨G, G1, G2, G3, -, -⟩ := value_type ht h' hf hw
              have : F = G := by
                obtain ⟨i, hi, ei⟩ := List.mem_iff_getElem.1 F1
                obtain ⟨j, hj, ej⟩ := List.mem_iff_getElem.1 G1
                have hp := List.pairwise_iff_getElem.1 (Pb.otlp_proper.differ t)
                rcases Nat.lt_trichotomy i j with lt | eq | gt
                · exact absurd (by rw [ei, ej, F2, G2]) (hp i j hi hj lt)
                · subst eq; rw [← ei, ← ej]
                · exact absurd (by rw [ei, ej, F2, G2]) (hp j i hj hi gt)
              subst this
              exact fields_same_of_shows fs f.num v (mem_valuesOf.1 hv) d d' F.kind f.ty w y F3 G3 F4 F5 hy hy'
    | _ => cases d <;> exact absurd h (by simp [Fits])
theorem fields_same_of_shows : ∀ (fs : List (Nat × Val)) (n : Nat) (v : Val), (n, v) ∈ fs → ∀ (d d' : Nat) (k : Kind) (ty : Ty) (w : Val) (x : Json), Fits otlp d k v →
    Fits otlp d' k w → good k ty = true → inside k = true → Shows ty v x → Shows ty w x → Same ty v w
  | [], _, _, h => nomatch h
  | (m, v') :: r, n, v, h => by
    intro d d' k ty w x
    rcases List.mem_cons.1 h with e | h
    · cases e
      exact same_of_shows v' d d' k ty w x
    · exact fields_same_of_shows r n v h d d' k ty w x
end

variable {shortest : Nat → Int → Fp.Dec}

/-- **C100.** Metrics that are written alike, with any spaces, are the same, but for fields that OTLP does not have, and which of the values that are not a number a double is. -/
theorem C100_injective (S : Fp.Right shortest) {d d' : Nat} {v w : Val} (h : Fits otlp d (.msg 1) v) (h' : Fits otlp d' (.msg 1) w) {x : Json} {s t : Bytes}
    {pretty extra pretty' extra' : Bool} (hs : json pretty extra shortest v = some s) (ht : json pretty' extra' shortest w = some t) (hx : Text (.value x) s)
    (hx' : Text (.value x) t) : Same (.msg 1) v w := by
  obtain ⟨y, h1, h2⟩ := C100_text S h
  obtain ⟨z, g1, g2⟩ := C100_text S h'
  obtain ⟨s', e1, f1⟩ := h2 pretty extra
  obtain ⟨t', e2, f2⟩ := g2 pretty' extra'
  rw [hs] at e1
  rw [ht] at e2
  cases e1
  cases e2
  rw [(f1 x).1 hx] at *
  rw [(f2 _).1 hx'] at *
  exact same_of_shows v d d' (.msg 1) (.msg 1) w z h h' (by decide) (by decide) h1 g1

/-! ## Examples -/

/-- 1.5 and 0.00000001. -/
def exDigits : Nat → Int → Fp.Dec := fun m _ => if m = 2 ^ 52 + 2 ^ 51 then ⟨[49, 53], 1⟩ else ⟨[49], -7⟩

/-- A sum and a histogram, and an attribute with a line end and a quote. -/
def exData : Val :=
  .msg [(1, .msg [(2, .msg [
    (2, .msg [(1, .bytes (ascii "m")), (7, .msg [(1, .msg [(2, .num 5), (4, .num 0x3ff8000000000000),
      (7, .msg [(1, .bytes (ascii "a\n\"b")), (2, .msg [(7, .bytes [1, 2, 255])] [])] [])] []), (2, .num 2), (3, .num 1)] [])] []),
    (2, .msg [(1, .bytes (ascii "h")), (9, .msg [(1, .msg [(4, .num 3), (5, .num 0xfff0000000000000), (7, .nums [0x3ff8000000000000, 0x3e45798ee2308c3a])] [])] [])] [])] []),
    (3, .bytes (ascii "u"))] [])] []

/-- `exData` as it comes over the network, with a field that OTLP does not have. -/
def exWire : Bytes := (Pb.marshal otlp 1 exData).getD [] ++ [40, 1]

/-- The text. -/
def exText : Bytes := ascii "{\"resourceMetrics\":[{\"scopeMetrics\":[{\"metrics\":[{\"name\":\"m\",\"sum\":{\"dataPoints\":[{\"attributes\":[{\"key\":\"a\\n\\\"b\",\"value\":{\"bytesValue\":\"AQL/\"}}],\"startTimeUnixNano\":\"5\",\"asDouble\":1.5}],\"aggregationTemporality\":\"AGGREGATION_TEMPORALITY_CUMULATIVE\",\"isMonotonic\":true}},{\"name\":\"h\",\"histogram\":{\"dataPoints\":[{\"count\":\"3\",\"sum\":\"-Infinity\",\"explicitBounds\":[1.5,1e-8]}]}}]}],\"schemaUrl\":\"u\"}]}"

theorem exWire_json : (Pb.unmarshal otlp 1 exWire).bind (json false false exDigits) = some exText := by decide +kernel

/-- Metrics that the hypotheses hold of: what is read from the network fits, and the text is `exText`. -/
example : ∃ v, Fits otlp 10000 (.msg 1) v ∧ json false false exDigits v = some exText ∧
    ∃ shortest, Fp.Right shortest ∧ ∃ x, Shows (.msg 1) v x := by
  obtain ⟨v, h, h'⟩ := Option.bind_eq_some_iff.1 exWire_json
  have hv := (Pb.C93_accepted Pb.otlp_proper h).1
  obtain ⟨S, hS⟩ := Fp.right_exists
  obtain ⟨x, hx, -⟩ := C100_text hS hv
  exact ⟨v, hv, h', S, hS, x, hx⟩

/-- Indentation; an empty object. -/
example : (json true false exDigits (.msg [(1, .msg [] []), (1, .msg [(3, .bytes [9])] [])] [])) =
    some (ascii "{\n  \"resourceMetrics\": [\n    {},\n    {\n      \"schemaUrl\": \"\\t\"\n    }\n  ]\n}") := by decide +kernel

/-- A string that is not UTF-8. -/
example : json false false exDigits (.msg [(1, .msg [(3, .bytes [255])] [])] []) = none := by decide +kernel

/-- Doubles: 0, -0, and those that are not numbers. -/
example : (double exDigits 0, double exDigits (2 ^ 63), double exDigits 0x7ff8000000000000, double exDigits 0x7ff0000000000000) =
    (.num [48], .num [45, 48], .str (ascii "NaN"), .str (ascii "Infinity")) := by rfl

/-- Values that are the same though they differ, and values that are not. -/
example : Same (.msg 30) (.msg [(1, .num 0x7ff8000000000000)] []) (.msg [(1, .num 0x7ff8000000000001)] [40, 1]) := by
  refine .msg rfl fun f hf i v w hv hw => ?_
  cases i with
  | zero =>
    simp only [List.getElem?_cons_zero, Option.some.injEq, Prod.mk.injEq] at hv hw
    obtain ⟨h1, rfl⟩ := hv
    obtain ⟨-, rfl⟩ := hw
    have := decls_nums 30 (by decide) f hf _ (List.mem_cons_self ..) h1.symm
    rw [this]
    exact .nan ⟨by decide, by decide⟩ ⟨by decide, by decide⟩
  | succ i => exact absurd hv (by simp)
example : ¬ Same .u64 (.num 1) (.num 2) := nofun

/-- Texts: spaces are allowed, a comma after the last element is not. -/
example : Text (.value (.arr [.null])) (ascii "[ null ]") := by
  have h : Text (.value (.arr [.null])) (91 :: ([32] ++ ascii "null" ++ [32]) ++ [93]) := .arr (.element (ws_cons (.inl rfl) ws_nil) .null (ws_cons (.inl rfl) ws_nil))
  exact h

end Verif.Jn
