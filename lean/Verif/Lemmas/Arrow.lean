import Verif.Spec.Arrow
/-!
# Columns stand for the messages appended
-/
namespace Verif.A3
variable {Any : Type}

/-- Made of leaves and messages only. -/
def IsElem : Node → Prop
  | .leaf _ => True
  | .msg _ => True
  | _ => False

/-- The shape of a schema. -/
def Shaped : Node → Prop
  | .leaf _ => True
  | .msg fs => Shaped fs
  | .nil => True
  | .cons _ _ e r => IsElem e ∧ Shaped e ∧ Shaped r

/-- Where the lists start. -/
def starts {α : Type} (ls : List (List α)) : List Nat := (List.range ls.length).map fun i => (ls.take i).flatten.length

theorem starts_snoc {α : Type} (ls : List (List α)) (l : List α) : starts (ls ++ [l]) = starts ls ++ [ls.flatten.length] := by
  unfold starts
  rw [List.length_append, List.length_singleton, List.range_succ, List.map_append]
  congr 1
  · apply List.map_congr_left
    intro i hi
    rw [List.take_append_of_le_length (Nat.le_of_lt (List.mem_range.1 hi))]
  · simp

theorem starts_get {α : Type} (ls : List (List α)) (i : Nat) (h : i < ls.length) :
    (starts ls)[i]? = some (ls.take i).flatten.length := by
  unfold starts
  simp [h]

variable (C : Coder Any)

/-- The columns hold these messages, or nulls. -/
def Rep : (n : Node) → Arr n → List (Option (Val Any n)) → Prop
  | .leaf l, a, xs => a = xs.map (Option.map (toCell C l))
  | .msg fs, a, xs => a.1 = xs.map Option.isSome ∧ Rep fs a.2 xs
  | .nil, _, _ => True
  | .cons _ .implicit e r, a, xs =>
    Rep e a.1 (xs.map fun o => o.bind fun v => if hasImplicit e v.1 then some v.1 else none) ∧ Rep r a.2 (xs.map (Option.map (·.2)))
  | .cons _ .explicit e r, a, xs =>
    Rep e a.1 (xs.map fun o => o.bind fun v => v.1) ∧ Rep r a.2 (xs.map (Option.map (·.2)))
  | .cons _ .repeated e r, a, xs =>
    let ls : List (List (Val Any e)) := xs.map fun o => o.elim [] fun v => v.1
    (a.1.1 = starts ls ∧ a.1.2.1 = ls.map (fun l => !l.isEmpty) ∧ Rep e a.1.2.2 (ls.flatten.map some)) ∧ Rep r a.2 (xs.map (Option.map (·.2)))

theorem rep_empty : ∀ n : Node, Rep C n (empty n) []
  | .leaf _ => rfl
  | .msg fs => ⟨rfl, rep_empty fs⟩
  | .nil => trivial
  | .cons _ .implicit e r => ⟨rep_empty e, rep_empty r⟩
  | .cons _ .explicit e r => ⟨rep_empty e, rep_empty r⟩
  | .cons _ .repeated e r => ⟨⟨rfl, rfl, rep_empty e⟩, rep_empty r⟩

theorem rep_len {n : Node} (hn : IsElem n) {a : Arr n} {xs} (h : Rep C n a xs) : len n a = xs.length := by
  match n with
  | .leaf l => simp only [Rep] at h; subst h; simp [len]
  | .msg fs => simp [len, h.1]
  | .nil => exact hn.elim
  | .cons .. => exact hn.elim

theorem rep_null : ∀ (n : Node), Shaped n → ∀ (a : Arr n) (xs), Rep C n a xs → Rep C n (appendNull n a) (xs ++ [none])
  | .leaf l, _, a, xs, h => by simp only [Rep] at h; subst h; simp [Rep, appendNull]
  | .msg fs, hs, a, xs, h => ⟨by simp [appendNull, h.1], rep_null fs hs a.2 xs h.2⟩
  | .nil, _, _, _, _ => trivial
  | .cons _ .implicit e r, hs, a, xs, h => by
    refine ⟨?_, ?_⟩
    · have := rep_null e hs.2.1 a.1 _ h.1
      simpa [appendNull] using this
    · have := rep_null r hs.2.2 a.2 _ h.2
      simpa [appendNull] using this
  | .cons _ .explicit e r, hs, a, xs, h => by
    refine ⟨?_, ?_⟩
    · have := rep_null e hs.2.1 a.1 _ h.1
      simpa [appendNull] using this
    · have := rep_null r hs.2.2 a.2 _ h.2
      simpa [appendNull] using this
  | .cons _ .repeated e r, hs, a, xs, h => by
    refine ⟨⟨?_, ?_, ?_⟩, ?_⟩
    · have hl := rep_len C hs.1 h.1.2.2
      simp only [List.length_map] at hl
      simp only [appendNull, List.map_append, List.map_cons, List.map_nil, starts_snoc, h.1.1, hl]
    · simp [appendNull, h.1.2.1]
    · simpa [appendNull] using h.1.2.2
    · have := rep_null r hs.2.2 a.2 _ h.2
      simpa [appendNull] using this

theorem rep_write : ∀ (n : Node), Shaped n → ∀ (a : Arr n) (xs) (v : Val Any n), Rep C n a xs → Rep C n (write C n a v) (xs ++ [some v])
  | .leaf l, _, a, xs, v, h => by simp only [Rep] at h; subst h; simp [Rep, write]
  | .msg fs, hs, a, xs, v, h => ⟨by simp [write, h.1], rep_write fs hs a.2 xs v h.2⟩
  | .nil, _, _, _, _, _ => trivial
  | .cons _ .implicit e r, hs, a, xs, v, h => by
    refine ⟨?_, ?_⟩
    · by_cases hb : hasImplicit e v.1 = true
      · have := rep_write e hs.2.1 a.1 _ v.1 h.1
        simpa [write, hb] using this
      · have := rep_null C e hs.2.1 a.1 _ h.1
        simpa [write, hb] using this
    · have := rep_write r hs.2.2 a.2 _ v.2 h.2
      simpa [write] using this
  | .cons _ .explicit e r, hs, a, xs, (v, w), h => by
    refine ⟨?_, ?_⟩
    · cases v with
      | none =>
        have := rep_null C e hs.2.1 a.1 _ h.1
        simpa [write] using this
      | some x =>
        have := rep_write e hs.2.1 a.1 _ x h.1
        simpa [write] using this
    · have := rep_write r hs.2.2 a.2 _ w h.2
      simpa [write] using this
  | .cons _ .repeated e r, hs, a, xs, (v, w), h => by
    have hl := rep_len C hs.1 h.1.2.2
    simp only [List.length_map] at hl
    have hfold : ∀ (l : List (Val Any e)) (b : Arr e) (ys), Rep C e b ys →
        Rep C e (l.foldl (fun x y => write C e x y) b) (ys ++ l.map some) := by
      intro l
      induction l with
      | nil => intro b ys hb; simpa using hb
      | cons x l ih =>
        intro b ys hb
        have := ih _ _ (rep_write e hs.2.1 b ys x hb)
        simpa using this
    refine ⟨⟨?_, ?_, ?_⟩, ?_⟩
    · by_cases hv : v.isEmpty = true
      · simp only [write, hv, if_true, List.map_append, List.map_cons, List.map_nil, starts_snoc, h.1.1, hl]
      · simp only [write, hv, Bool.false_eq_true, if_false, List.map_append, List.map_cons, List.map_nil, starts_snoc, h.1.1, hl]
    · by_cases hv : v.isEmpty = true
      · simp [write, hv, h.1.2.1]
      · simp [write, hv, h.1.2.1]
    · by_cases hv : v.isEmpty = true
      · have hv' : v = [] := List.isEmpty_iff.1 hv
        subst hv'
        simpa [write] using h.1.2.2
      · have := hfold v a.1.2.2 _ h.1.2.2
        simpa [write, hv] using this
    · have := rep_write r hs.2.2 a.2 _ w h.2
      simpa [write] using this

theorem rep_isNull {n : Node} (hn : IsElem n) {a : Arr n} {xs} (h : Rep C n a xs) {i : Nat} {o} (hi : xs[i]? = some o) :
    isNull n a i = !o.isSome := by
  match n with
  | .leaf l =>
    simp only [Rep] at h; subst h
    cases o <;> simp [isNull, hi]
  | .msg fs => simp [isNull, h.1, hi]
  | .nil => exact hn.elim
  | .cons .. => exact hn.elim

theorem rep_read (hC : C.Faithful) : ∀ (n : Node), Shaped n → ∀ (a : Arr n) (xs), Rep C n a xs → ∀ (i : Nat) (v : Val Any n),
    xs[i]? = some (some v) → read C n a i = v
  | .leaf l, _, a, xs, h, i, v, hi => by
    simp only [Rep] at h; subst h
    cases l with
    | any => simp [read, hi, fromCell, toCell, hC v]
    | _ => simp [read, hi, fromCell, toCell]
  | .msg fs, hs, a, xs, h, i, v, hi => rep_read hC fs hs a.2 xs h.2 i v hi
  | .nil, _, _, _, _, _, _, _ => rfl
  | .cons _ .implicit e r, hs, a, xs, h, i, (v, w), hi => by
    have hw : read C r a.2 i = w := rep_read hC r hs.2.2 a.2 _ h.2 i w (by simp [hi])
    have hn := rep_isNull C hs.1 h.1 (i := i) (o := if hasImplicit e v then some v else none) (by simp [hi])
    refine Prod.ext ?_ hw
    simp only [read, hn]
    by_cases hb : hasImplicit e v = true
    · simp only [hb, if_true, Option.isSome_some, Bool.not_true, Bool.false_eq_true, if_false]
      exact rep_read hC e hs.2.1 a.1 _ h.1 i v (by simp [hi, hb])
    · simp only [hb, Bool.false_eq_true, if_false, Option.isSome_none, Bool.not_false, if_true]
      match e, v, hb with
      | .leaf .bytes, v, hb => simp [hasImplicit] at hb; simp [zero, hb]
      | .leaf .num, v, hb => simp [hasImplicit] at hb
      | .leaf .text, v, hb => simp [hasImplicit] at hb
      | .leaf .any, v, hb => simp [hasImplicit] at hb
      | .msg fs, v, hb => simp [hasImplicit] at hb
  | .cons _ .explicit e r, hs, a, xs, h, i, (v, w), hi => by
    have hw : read C r a.2 i = w := rep_read hC r hs.2.2 a.2 _ h.2 i w (by simp [hi])
    have hn := rep_isNull C hs.1 h.1 (i := i) (o := v) (by simp [hi])
    refine Prod.ext ?_ hw
    cases v with
    | none => simp [read, hn]
    | some x =>
      have := rep_read hC e hs.2.1 a.1 _ h.1 i x (by simp [hi])
      simp [read, hn, this]
  | .cons _ .repeated e r, hs, a, xs, h, i, (v, w), hi => by
    have hw : read C r a.2 i = w := rep_read hC r hs.2.2 a.2 _ h.2 i w (by simp [hi])
    refine Prod.ext ?_ hw
    have hih := fun j x hx => rep_read hC e hs.2.1 a.1.2.2 _ h.1.2.2 j x hx
    have hl := rep_len C hs.1 h.1.2.2
    obtain ⟨⟨h1, h2, -⟩, -⟩ := h
    revert hih hl h1 h2
    generalize hls : (xs.map fun o => o.elim [] fun v : Val Any (.cons _ .repeated e r) => v.1) = ls
    intro hih hl h1 h2
    have hg : ls[i]? = some v := by subst hls; simp [hi]
    have hlt : i < ls.length := (List.getElem?_eq_some_iff.1 hg).1
    have hgi : ls[i] = v := (List.getElem?_eq_some_iff.1 hg).2
    simp only [read, h2, List.getElem?_map, hg, Option.map_some, Option.getD_some]
    cases hv : v with
    | nil => simp
    | cons x v' =>
      rw [← hv]
      have hne : (!v.isEmpty) = true := by simp [hv]
      rw [if_pos hne]
      have hsplit : ls = ls.take i ++ v :: ls.drop (i + 1) := by
        conv_lhs => rw [← List.take_append_drop i ls, List.drop_eq_getElem_cons hlt, hgi]
      have hend : (a.1.1[i + 1]?.getD (len e a.1.2.2)) = (ls.take i).flatten.length + v.length := by
        have htk : ls.take (i + 1) = ls.take i ++ [v] := by rw [List.take_add_one, hg]; rfl
        by_cases hlt' : i + 1 < ls.length
        · rw [h1, starts_get ls (i + 1) hlt', htk]; simp
        · have hlen : ls.length = i + 1 := by omega
          have : a.1.1[i + 1]? = none := by rw [h1]; simp [starts, hlen]
          rw [this, Option.getD_none, hl, List.length_map]
          rw [← hlen, List.take_length] at htk
          have hq := congrArg (fun l => l.flatten.length) htk
          simpa only [List.flatten_append, List.length_append, List.flatten_singleton] using hq
      have hst : a.1.1[i]?.getD 0 = (ls.take i).flatten.length := by rw [h1, starts_get ls i hlt]; rfl
      simp only [rowsOf, hend, hst, Nat.add_sub_cancel_left, List.map_map]
      apply List.ext_getElem?
      intro j
      by_cases hj : j < v.length
      · have : read C e a.1.2.2 ((ls.take i).flatten.length + j) = v[j] := by
          apply hih
          have : ls.flatten[(ls.take i).flatten.length + j]? = some v[j] := by
            have hf : ls.flatten = (ls.take i).flatten ++ (v ++ (ls.drop (i + 1)).flatten) := by
              conv_lhs => rw [hsplit]
              rw [List.flatten_append, List.flatten_cons]
            rw [hf, List.getElem?_append_right (Nat.le_add_right _ _), Nat.add_sub_cancel_left,
              List.getElem?_append_left hj, List.getElem?_eq_getElem hj]
          rw [List.getElem?_map, this]; rfl
        rw [List.getElem?_map, List.getElem?_range hj, List.getElem?_eq_getElem hj]
        exact congrArg some this
      · rw [List.getElem?_eq_none (by simpa using hj), List.getElem?_eq_none (by simpa using hj)]
theorem starts_append {α : Type} (ls ms : List (List α)) :
    starts (ls ++ ms) = starts ls ++ (starts ms).map (ls.flatten.length + ·) := by
  unfold starts
  rw [List.length_append, List.range_add, List.map_append, List.map_map, List.map_map]
  congr 1
  · apply List.map_congr_left
    intro i hi
    rw [List.take_append_of_le_length (Nat.le_of_lt (List.mem_range.1 hi))]
  · apply List.map_congr_left
    intro i _
    simp only [Function.comp_apply]
    rw [List.take_length_add_append, List.flatten_append, List.length_append]

theorem rep_concat : ∀ (n : Node), Shaped n → ∀ (a b : Arr n) (xs ys), Rep C n a xs → Rep C n b ys → Rep C n (concat n a b) (xs ++ ys)
  | .leaf l, _, a, b, xs, ys, h, h' => by simp only [Rep] at h h'; subst h; subst h'; simp [Rep, concat]
  | .msg fs, hs, a, b, xs, ys, h, h' => ⟨by simp [concat, h.1, h'.1], rep_concat fs hs a.2 b.2 xs ys h.2 h'.2⟩
  | .nil, _, _, _, _, _, _, _ => trivial
  | .cons _ .implicit e r, hs, a, b, xs, ys, h, h' => by
    refine ⟨?_, ?_⟩
    · have := rep_concat e hs.2.1 a.1 b.1 _ _ h.1 h'.1
      simpa [concat] using this
    · have := rep_concat r hs.2.2 a.2 b.2 _ _ h.2 h'.2
      simpa [concat] using this
  | .cons _ .explicit e r, hs, a, b, xs, ys, h, h' => by
    refine ⟨?_, ?_⟩
    · have := rep_concat e hs.2.1 a.1 b.1 _ _ h.1 h'.1
      simpa [concat] using this
    · have := rep_concat r hs.2.2 a.2 b.2 _ _ h.2 h'.2
      simpa [concat] using this
  | .cons _ .repeated e r, hs, a, b, xs, ys, h, h' => by
    have hl := rep_len C hs.1 h.1.2.2
    simp only [List.length_map] at hl
    refine ⟨⟨?_, ?_, ?_⟩, ?_⟩
    · simp only [concat, List.map_append, starts_append, h.1.1, h'.1.1, hl]
    · simp [concat, h.1.2.1, h'.1.2.1]
    · have := rep_concat e hs.2.1 a.1.2.2 b.1.2.2 _ _ h.1.2.2 h'.1.2.2
      rw [List.map_append, List.flatten_append, List.map_append]
      exact this
    · have := rep_concat r hs.2.2 a.2 b.2 _ _ h.2 h'.2
      simpa [concat] using this

theorem rep_foldl {n : Node} (hn : Shaped n) (ms : List (Val Any n)) {a : Arr n} {xs} (h : Rep C n a xs) :
    Rep C n (ms.foldl (append C n) a) (xs ++ ms.map some) := by
  induction ms generalizing a xs with
  | nil => simpa using h
  | cons m ms ih =>
    have := ih (rep_write C n hn a xs m h)
    simpa [append] using this

/-! ## The schema -/

theorem createNode_shape {kids : Nat → Option Node} (hk : ∀ t n, kids t = some n → Shaped n) {f c e}
    (h : createNode kids f = some (c, e)) : IsElem e ∧ Shaped e := by
  unfold createNode at h
  by_cases hm : f.map = true
  · simp [hm] at h
  · simp only [hm, Bool.false_eq_true, if_false] at h
    cases hk' : f.kind with
    | msg t =>
      simp only [hk'] at h
      cases hq : kids t with
      | none => simp [hq] at h
      | some fs =>
        simp only [hq, Option.some.injEq, Prod.mk.injEq] at h
        exact h.2 ▸ ⟨trivial, hk t fs hq⟩
    | group => simp [hk'] at h
    | num => simp only [hk', Option.some.injEq, Prod.mk.injEq] at h; exact h.2 ▸ ⟨trivial, trivial⟩
    | text => simp only [hk', Option.some.injEq, Prod.mk.injEq] at h; exact h.2 ▸ ⟨trivial, trivial⟩
    | bytes => simp only [hk', Option.some.injEq, Prod.mk.injEq] at h; exact h.2 ▸ ⟨trivial, trivial⟩
    | any => simp only [hk', Option.some.injEq, Prod.mk.injEq] at h; exact h.2 ▸ ⟨trivial, trivial⟩

theorem createNodes_shape {kids : Nat → Option Node} (hk : ∀ t n, kids t = some n → Shaped n) :
    ∀ {fs n}, createNodes kids fs = some n → Shaped n
  | [], n, h => by simp only [createNodes, Option.some.injEq] at h; exact h ▸ trivial
  | f :: fs, n, h => by
    simp only [createNodes] at h
    cases hf : createNode kids f with
    | none => simp [hf] at h
    | some p =>
      cases hr : createNodes kids fs with
      | none => simp [hf, hr] at h
      | some r =>
        obtain ⟨c, e⟩ := p
        simp only [hf, hr, Option.some.injEq] at h
        have := createNode_shape hk hf
        exact h ▸ ⟨this.1, this.2, createNodes_shape hk hr⟩

theorem kidsAt_shape (T : Nat → List FieldD) : ∀ n t m, kidsAt T n t = some m → Shaped m
  | 0, t, m, h => by
    simp only [kidsAt] at h
    cases ht : T t with
    | nil => simp only [ht, Option.some.injEq] at h; exact h ▸ trivial
    | cons => simp [ht] at h
  | n + 1, t, m, h => createNodes_shape (kidsAt_shape T n) h

theorem build_some {T t n} (h : build T t = some n) : kidsAt T maxDepth t = some n ∧ toParquet n = true := by
  unfold build at h
  cases hk : kidsAt T maxDepth t with
  | none => simp [hk] at h
  | some m =>
    cases hp : toParquet m with
    | false => simp [hk, hp] at h
    | true =>
      simp only [hk, hp, if_true, Option.some.injEq] at h
      exact ⟨by rw [h], by rw [← h, hp]⟩

theorem build_shape {T t n} (h : build T t = some n) : Shaped n := kidsAt_shape T _ t n (build_some h).1

theorem createNode_none {kids : Nat → Option Node} {f : FieldD} :
    createNode kids f = none ↔ f.map = true ∨ f.kind = .group ∨ ∃ t, f.kind = .msg t ∧ kids t = none := by
  unfold createNode
  by_cases hm : f.map = true
  · simp [hm]
  · simp only [hm, Bool.false_eq_true, if_false, false_or]
    cases hk : f.kind with
    | msg t => cases hq : kids t <;> simp [hq]
    | _ => simp

theorem createNodes_none {kids : Nat → Option Node} : ∀ {fs}, createNodes kids fs = none ↔ ∃ f ∈ fs, createNode kids f = none
  | [] => by simp [createNodes]
  | f :: fs => by
    have ih := createNodes_none (kids := kids) (fs := fs)
    simp only [createNodes, List.mem_cons, exists_eq_or_imp]
    cases hf : createNode kids f with
    | none => simp
    | some p =>
      cases hr : createNodes kids fs with
      | none => simp only [hr, true_iff] at ih; simp [ih]
      | some r => simp only [hr, reduceCtorEq, false_iff] at ih; simp [ih]

/-- Below a field. -/
theorem reach_below {T t f t'} (hf : f ∈ T t) (hk : f.kind = .msg t') {d g} (h : Reach T t' d g) : Reach T t (d + 1) g := by
  induction h with
  | top hm => exact .step (.top hf) hk hm
  | step _ hk' hm ih => exact .step ih hk' hm

theorem Reach.split {T t d f} (h : Reach T t (d + 1) f) : ∃ g t', g ∈ T t ∧ g.kind = .msg t' ∧ Reach T t' d f := by
  induction d generalizing f with
  | zero =>
    cases h with
    | step h' hk hm => cases h' with | top hg => exact ⟨_, _, hg, hk, .top hm⟩
  | succ d ih =>
    cases h with
    | step h' hk hm =>
      obtain ⟨g, t', hg, hk', hr⟩ := ih h'
      exact ⟨g, t', hg, hk', .step hr hk hm⟩

theorem kidsAt_none (T : Nat → List FieldD) : ∀ n t,
    kidsAt T n t = none ↔ ∃ d f, Reach T t d f ∧ (n ≤ d ∨ f.map = true ∨ f.kind = .group)
  | 0, t => by
    simp only [kidsAt, Nat.zero_le, true_or, and_true]
    cases ht : T t with
    | nil =>
      simp only [reduceCtorEq, false_iff, not_exists]
      intro d f h
      have : ∀ d f, Reach T t d f → False := by
        intro d f h
        induction h with
        | top h => simp [ht] at h
        | step _ _ _ ih => exact ih
      exact this d f h
    | cons f fs => simp only [true_iff]; exact ⟨0, f, .top (by simp [ht])⟩
  | n + 1, t => by
    simp only [kidsAt, createNodes_none, createNode_none]
    constructor
    · rintro ⟨f, hf, hm | hg | ⟨t', hk, hn⟩⟩
      · exact ⟨0, f, .top hf, .inr (.inl hm)⟩
      · exact ⟨0, f, .top hf, .inr (.inr hg)⟩
      · obtain ⟨d, g, hr, hb⟩ := (kidsAt_none T n t').1 hn
        exact ⟨d + 1, g, reach_below hf hk hr, hb.imp_left Nat.succ_le_succ⟩
    · rintro ⟨d, f, hr, hb⟩
      cases d with
      | zero =>
        cases hr with
        | top hf =>
          rcases hb with hb | hb | hb
          · omega
          · exact ⟨f, hf, .inl hb⟩
          · exact ⟨f, hf, .inr (.inl hb)⟩
      | succ d =>
        obtain ⟨g, t', hg, hk, hr'⟩ := hr.split
        exact ⟨g, hg, .inr (.inr ⟨t', hk, (kidsAt_none T n t').2 ⟨d, f, hr', hb.imp_left Nat.le_of_succ_le_succ⟩⟩)⟩

/-! ## Columns -/

theorem paths_pre (n : Node) : ∀ pre, paths pre n = (paths [] n).map (pre ++ ·) := by
  induction n with
  | leaf l => intro pre; simp [paths]
  | msg fs ih => intro pre; simp only [paths]; rw [ih (pre ++ dot), ih ([] ++ dot)]; simp
  | nil => intro pre; rfl
  | cons name c e r ihe ihr =>
    intro pre
    simp only [paths, List.map_append]
    rw [ihe, ihr pre, ihe ([] ++ name ++ _), List.map_map]
    simp [Function.comp_def]

theorem pick_append (q : Bytes) (i : Nat) (ps qs : List Bytes) : pick q i (ps ++ qs) = pick q i ps ++ pick q (i + ps.length) qs := by
  induction ps generalizing i with
  | nil => simp [pick]
  | cons p ps ih =>
    simp only [List.cons_append, pick, ih (i + 1), List.length_cons, Nat.add_assoc, Nat.add_comm 1]
    by_cases h : q.isPrefixOf p = true <;> simp [h]

theorem pick_all (q : Bytes) (i : Nat) (ps : List Bytes) (h : ∀ p ∈ ps, q.isPrefixOf p = true) :
    pick q i ps = (List.range ps.length).map (i + ·) := by
  induction ps generalizing i with
  | nil => rfl
  | cons p ps ih =>
    simp only [pick, h p (by simp), if_true, List.length_cons, List.range_succ_eq_map, List.map_cons, List.map_map, Nat.add_zero]
    rw [ih (i + 1) fun p hp => h p (by simp [hp])]
    congr 1
    apply List.map_congr_left
    intro k _
    simp only [Function.comp_apply]
    omega

theorem pick_none (q : Bytes) (i : Nat) (ps : List Bytes) (h : ∀ p ∈ ps, q.isPrefixOf p = false) : pick q i ps = [] := by
  induction ps generalizing i with
  | nil => rfl
  | cons p ps ih =>
    simp only [pick, h p (by simp), Bool.false_eq_true, if_false]
    exact ih (i + 1) fun p hp => h p (by simp [hp])

theorem dotted {k name : Bytes} (hk : 46 ∉ k) (hn : 46 ∉ name) (rest : Bytes) :
    (k ++ dot).isPrefixOf (name ++ 46 :: rest) = decide (k = name) := by
  induction k generalizing name with
  | nil =>
    cases name with
    | nil => rfl
    | cons c name =>
      have hc : (46 == c) = false := by
        have : (46 : UInt8) ≠ c := fun h => hn (by simp [h])
        simpa using this
      simp [dot, List.isPrefixOf, hc]
  | cons b k ih =>
    cases name with
    | nil =>
      have : (b == 46) = false := by
        have : b ≠ (46 : UInt8) := fun h => hk (by simp [h])
        simpa using this
      simp [List.isPrefixOf, this]
    | cons c name =>
      have := ih (name := name) (fun h => hk (by simp [h])) (fun h => hn (by simp [h]))
      simp only [List.cons_append, List.isPrefixOf, this, List.cons.injEq]
      by_cases hbc : b = c <;> simp [hbc]

theorem pick_columns {k : Bytes} (hk : 46 ∉ k) : ∀ (n : Node), TopMessages n → ∀ i,
    pick (k ++ dot) i (paths [] n) = ((columnsOf i n).filter fun p => decide (k = p.1)).flatMap (·.2)
  | .nil, _, i => by simp [paths, pick, columnsOf]
  | .cons name c (.msg fs) r, h, i => by
    have hx : ∀ p ∈ paths (name ++ if c = .repeated then listElement else []) (.msg fs), (k ++ dot).isPrefixOf p = decide (k = name) := by
      intro p hp
      rw [paths_pre, List.mem_map] at hp
      obtain ⟨q, hq, rfl⟩ := hp
      rw [paths, paths_pre, List.mem_map] at hq
      obtain ⟨q', -, rfl⟩ := hq
      by_cases hc : c = .repeated
      · have := dotted hk h.1 ([108, 105, 115, 116, 46, 101, 108, 101, 109, 101, 110, 116] ++ (dot ++ q'))
        simpa [hc, listElement] using this
      · have := dotted hk h.1 q'
        simpa [hc, dot] using this
    have hr := pick_columns hk r h.2.2 (i + (paths (name ++ if c = .repeated then listElement else []) (.msg fs)).length)
    rw [show paths [] (.cons name c (.msg fs) r) = paths (name ++ if c = .repeated then listElement else []) (.msg fs) ++ paths [] r from rfl,
      pick_append, hr]
    have hco : columnsOf i (.cons name c (.msg fs) r) =
      (name, (List.range (paths (name ++ if c = .repeated then listElement else []) (.msg fs)).length).map (i + ·)) ::
        columnsOf (i + (paths (name ++ if c = .repeated then listElement else []) (.msg fs)).length) r := rfl
    rw [hco]
    generalize hps : paths (name ++ if c = .repeated then listElement else []) (.msg fs) = ps at hx
    by_cases he : k = name
    · rw [pick_all _ _ _ fun p hp => by rw [hx p hp]; simp [he], List.filter_cons_of_pos (by simp [he]), List.flatMap_cons]
    · rw [pick_none _ _ _ fun p hp => by rw [hx p hp]; simp [he], List.filter_cons_of_neg (by simp [he]), List.nil_append]

/-- Fields do not share columns. -/
theorem columnsOf_ge : ∀ (n : Node) i, ∀ p ∈ columnsOf i n, ∀ x ∈ p.2, i ≤ x
  | .cons name c e r, i, p, hp, x, hx => by
    have hco : columnsOf i (.cons name c e r) =
      (name, (List.range (paths (name ++ if c = .repeated then listElement else []) e).length).map (i + ·)) ::
        columnsOf (i + (paths (name ++ if c = .repeated then listElement else []) e).length) r := rfl
    rw [hco, List.mem_cons] at hp
    rcases hp with rfl | hp
    · obtain ⟨j, -, rfl⟩ := List.mem_map.1 hx
      omega
    · have := columnsOf_ge r _ p hp x hx
      omega
  | .nil, i, p, hp, _, _ => by simp [columnsOf] at hp
  | .leaf _, i, p, hp, _, _ => by simp [columnsOf] at hp
  | .msg _, i, p, hp, _, _ => by simp [columnsOf] at hp

theorem columnsOf_lt {k : Bytes} : ∀ (n : Node) i, ∀ p ∈ columnsOf i n, ∀ q ∈ columnsOf i n, ∀ x ∈ p.2, x ∈ q.2 → p = q
  | .cons name c e r, i, p, hp, q, hq, x, hx, hy => by
    have hco : columnsOf i (.cons name c e r) =
      (name, (List.range (paths (name ++ if c = .repeated then listElement else []) e).length).map (i + ·)) ::
        columnsOf (i + (paths (name ++ if c = .repeated then listElement else []) e).length) r := rfl
    rw [hco, List.mem_cons] at hp hq
    rcases hp with rfl | hp <;> rcases hq with rfl | hq
    · rfl
    · obtain ⟨j, hj, rfl⟩ := List.mem_map.1 hx
      have := columnsOf_ge r _ q hq _ hy
      have := List.mem_range.1 hj
      omega
    · obtain ⟨j, hj, rfl⟩ := List.mem_map.1 hy
      have := columnsOf_ge r _ p hp _ hx
      have := List.mem_range.1 hj
      omega
    · exact columnsOf_lt (k := k) r _ p hp q hq x hx hy
  | .nil, i, p, hp, _, _, _, _, _ => by simp [columnsOf] at hp
  | .leaf _, i, p, hp, _, _, _, _, _ => by simp [columnsOf] at hp
  | .msg _, i, p, hp, _, _, _, _, _ => by simp [columnsOf] at hp

/-- Top-level names. -/
def names : Node → List Bytes
  | .cons name _ _ r => name :: names r
  | _ => []

theorem columnsOf_names : ∀ (n : Node) i, (columnsOf i n).map (·.1) = names n
  | .cons name c e r, i => by simp only [columnsOf, List.map_cons, names, columnsOf_names r]
  | .nil, _ => rfl
  | .leaf _, _ => rfl
  | .msg _, _ => rfl

theorem columnsOf_ne : ∀ (n : Node), TopMessages n → ∀ i, ∀ p ∈ columnsOf i n, p.2 ≠ []
  | .cons name c (.msg fs) r, h, i, p, hp => by
    have hco : columnsOf i (.cons name c (.msg fs) r) =
      (name, (List.range (paths (name ++ if c = .repeated then listElement else []) (.msg fs)).length).map (i + ·)) ::
        columnsOf (i + (paths (name ++ if c = .repeated then listElement else []) (.msg fs)).length) r := rfl
    rw [hco, List.mem_cons] at hp
    rcases hp with rfl | hp
    · have h1 : (paths (name ++ if c = .repeated then listElement else []) (.msg fs)).length = (paths [] fs).length := by
        rw [paths_pre, List.length_map, paths, paths_pre, List.length_map]
      have h2 := List.length_pos_of_ne_nil h.2.1
      intro h0
      have := congrArg List.length h0
      simp only [List.length_map, List.length_range, List.length_nil] at this
      omega
    · exact columnsOf_ne r h.2.2 _ p hp
  | .nil, _, i, p, hp => by simp [columnsOf] at hp

theorem readSome_only (hC : C.Faithful) (keep : Bytes → Bool) : ∀ (n : Node), Shaped n → ∀ (a : Arr n) xs, Rep C n a xs →
    ∀ i v, xs[i]? = some (some v) → readSome C keep n a i = only C keep n v
  | .leaf l, hs, a, xs, h, i, v, hi => rep_read C hC _ hs a xs h i v hi
  | .msg fs, hs, a, xs, h, i, v, hi => rep_read C hC _ hs a xs h i v hi
  | .nil, _, _, _, _, _, _, _ => rfl
  | .cons name c e r, hs, a, xs, h, i, (v, w), hi => by
    have hr : Rep C r a.2 (xs.map (Option.map (·.2))) := by cases c <;> exact h.2
    have hw := readSome_only hC keep r hs.2.2 a.2 _ hr i w (by simp [hi])
    refine Prod.ext ?_ hw
    simp only [readSome, only]
    by_cases hk : keep name = true
    · simp only [hk, if_true]
      have hv : Rep C (.cons name c e .nil) (a.1, ()) (xs.map (Option.map fun p => (p.1, ()))) := by
        cases c with
        | implicit =>
          refine ⟨?_, trivial⟩
          have := h.1
          rw [List.map_map]
          convert this using 2
          funext o; cases o <;> rfl
        | explicit =>
          refine ⟨?_, trivial⟩
          have := h.1
          rw [List.map_map]
          convert this using 2
          funext o; cases o <;> rfl
        | repeated =>
          have hm : ((xs.map (Option.map fun p : Val Any (.cons name .repeated e r) => ((p.1, ()) : Val Any (.cons name .repeated e .nil)))).map
              fun o => o.elim [] fun v => v.1) = xs.map fun o => o.elim [] fun v => v.1 := by
            rw [List.map_map]
            apply List.map_congr_left
            intro o _; cases o <;> rfl
          refine ⟨?_, trivial⟩
          rw [hm]
          exact h.1
      have := rep_read C hC (.cons name c e .nil) ⟨hs.1, hs.2.1, trivial⟩ (a.1, ()) _ hv i (v, ()) (by simp [hi])
      exact congrArg Prod.fst this
    · simp only [hk, Bool.false_eq_true, if_false]

theorem readSome_congr {keep keep' : Bytes → Bool} : ∀ (n : Node), (∀ x ∈ names n, keep x = keep' x) → ∀ (a : Arr n) i,
    readSome C keep n a i = readSome C keep' n a i
  | .leaf l, _, a, i => rfl
  | .msg fs, _, a, i => rfl
  | .nil, _, _, _ => rfl
  | .cons name c e r, h, a, i => by
    have := readSome_congr r (fun x hx => h x (by simp [names, hx])) a.2 i
    simp only [readSome, this, h name (by simp [names])]

end Verif.A3
