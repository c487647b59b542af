import Verif.Model.Paths
import Verif.Lemmas.Bytes
import Verif.Spec.Decimal
/-!
# C81: where the files are

`C81_server`: the two directories of a server, from its argument; `C81_apart`: they are never the same nor inside each other, nor the
directory of compiled scripts. `C81_same`: a server finds its files again exactly if it is given the same cleaned path. `C81_shards`,
`C81_scripts`: a file for each shard and each script. `C81_home`: the default, and what happens without `$HOME`.
`C81_windows`: the four documented rules for the home directory.
-/
namespace Verif.Pa

/-! ## What is claimed -/

/-- A path below a directory, as it is written. -/
def under (d x : Bytes) : Bytes := if d = dot then x else if d = [slash] then slash :: x else d ++ slash :: x

/-- `a` is `b` or lies inside it (both clean). -/
def Within (a b : Bytes) : Prop := a = b ∨ ∃ x, a = under b x

/-! ## Splitting and gluing -/

def Plain (c : Bytes) : Prop := c ≠ [] ∧ c ≠ dot ∧ c ≠ dotdot ∧ slash ∉ c

theorem split_ne (p : Bytes) : split p ≠ [] := by
  cases p with
  | nil => simp [split]
  | cons b r => unfold split; split <;> (try split) <;> simp

theorem split_noslash {c : Bytes} (h : slash ∉ c) : split c = [c] := by
  induction c with
  | nil => rfl
  | cons b c ih =>
    have hb : b ≠ slash := fun e => h (by simp [e])
    have hc : slash ∉ c := fun e => h (by simp [e])
    rw [split, if_neg hb, ih hc]

theorem split_append (a b : Bytes) : split (a ++ slash :: b) = split a ++ split b := by
  induction a with
  | nil => simp [split]
  | cons c a ih =>
    by_cases hc : c = slash
    · simp only [List.cons_append, split, if_pos hc, ih]
    · simp only [List.cons_append, split, if_neg hc, ih]
      cases h : split a with
      | nil => exact absurd h (split_ne a)
      | cons x xs => rfl

theorem split_glue {cs : List Bytes} (h : ∀ c ∈ cs, slash ∉ c) (hne : cs ≠ []) : split (glue cs) = cs := by
  induction cs with
  | nil => exact absurd rfl hne
  | cons c cs ih =>
    cases cs with
    | nil => exact split_noslash (h c (by simp))
    | cons d ds =>
      show split (c ++ slash :: glue (d :: ds)) = _
      rw [split_append, split_noslash (h c (by simp)), ih (fun x hx => h x (by simp [hx])) (by simp)]
      rfl

theorem split_mem_noslash (p : Bytes) : ∀ c ∈ split p, slash ∉ c := by
  induction p with
  | nil => simp [split]
  | cons b r ih =>
    by_cases hb : b = slash
    · rw [split, if_pos hb]
      intro c hc
      rcases List.mem_cons.1 hc with hc | hc
      · simp [hc]
      · exact ih c hc
    · rw [split, if_neg hb]
      cases h : split r with
      | nil => exact absurd h (split_ne r)
      | cons x xs =>
        rw [h] at ih
        intro c hc
        rcases List.mem_cons.1 hc with hc | hc
        · subst hc; intro hm
          rcases List.mem_cons.1 hm with hm | hm
          · exact hb hm.symm
          · exact ih x (by simp) hm
        · exact ih c (by simp [hc])

/-! ## Clean parts -/

/-- What `Clean` leaves: `..` only at the front, and not at the root. -/
structure Clean (r : Bool) (out : List Bytes) : Prop where
  ex : ∃ k rest, out = List.replicate k dotdot ++ rest ∧ (∀ c ∈ rest, Plain c) ∧ (r = true → k = 0)

theorem clean_nil (r : Bool) : Clean r [] := ⟨0, [], rfl, nofun, fun _ => rfl⟩

theorem clean_step {r : Bool} {out : List Bytes} (h : Clean r out) {c : Bytes} (hc : slash ∉ c) : Clean r (cleanStep r out c) := by
  obtain ⟨k, rest, rfl, hr, hk⟩ := h
  unfold cleanStep
  by_cases h1 : c = [] ∨ c = dot
  · rw [if_pos h1]; exact ⟨k, rest, rfl, hr, hk⟩
  rw [if_neg h1]
  by_cases h2 : c = dotdot
  · rw [if_pos h2]
    rcases List.eq_nil_or_concat rest with rfl | ⟨l, a, rfl⟩
    · rw [List.append_nil]
      cases k with
      | zero =>
        show Clean r (if r = true then [] else [dotdot])
        by_cases hr' : r = true
        · rw [if_pos hr']; exact clean_nil r
        · rw [if_neg hr']; exact ⟨1, [], rfl, nofun, fun e => absurd e hr'⟩
      | succ k =>
        rw [show (List.replicate (k + 1) dotdot).getLast? = some dotdot from by rw [List.replicate_succ']; simp]
        simp only [if_true]
        refine ⟨k + 2, [], ?_, nofun, fun e => absurd (hk e) (by omega)⟩
        rw [List.append_nil, ← List.replicate_succ']
    · rw [List.concat_eq_append] at *
      have ha := hr a (by simp)
      rw [show (List.replicate k dotdot ++ (l ++ [a])).getLast? = some a from by simp]
      simp only [if_neg ha.2.2.1]
      refine ⟨k, l, ?_, fun x hx => hr x (by simp [hx]), hk⟩
      rw [← List.append_assoc, List.dropLast_concat]
  · rw [if_neg h2]
    refine ⟨k, rest ++ [c], by simp, ?_, hk⟩
    intro x hx
    rcases List.mem_append.1 hx with hx | hx
    · exact hr x hx
    · simp at hx; subst hx
      exact ⟨fun e => h1 (Or.inl e), fun e => h1 (Or.inr e), h2, hc⟩

theorem clean_foldl {r : Bool} {out : List Bytes} (h : Clean r out) {cs : List Bytes} (hc : ∀ c ∈ cs, slash ∉ c) :
    Clean r (cs.foldl (cleanStep r) out) := by
  induction cs generalizing out with
  | nil => exact h
  | cons c cs ih => exact ih (clean_step h (hc c (by simp))) (fun x hx => hc x (by simp [hx]))

theorem step_plain {r : Bool} {out : List Bytes} {c : Bytes} (h : Plain c) : cleanStep r out c = out ++ [c] := by
  unfold cleanStep
  rw [if_neg (by intro e; rcases e with e | e; exact h.1 e; exact h.2.1 e), if_neg h.2.2.1]

theorem foldl_plain {r : Bool} {out cs : List Bytes} (h : ∀ c ∈ cs, Plain c) : cs.foldl (cleanStep r) out = out ++ cs := by
  induction cs generalizing out with
  | nil => simp
  | cons c cs ih =>
    rw [List.foldl_cons, step_plain (h c (by simp)), ih (fun x hx => h x (by simp [hx]))]
    simp

theorem foldl_dots (k j : Nat) : (List.replicate j dotdot).foldl (cleanStep false) (List.replicate k dotdot) = List.replicate (k + j) dotdot := by
  induction j generalizing k with
  | zero => rfl
  | succ j ih =>
    rw [List.replicate_succ, List.foldl_cons]
    have : cleanStep false (List.replicate k dotdot) dotdot = List.replicate (k + 1) dotdot := by
      unfold cleanStep
      rw [if_neg (by decide), if_pos rfl]
      cases k with
      | zero => rfl
      | succ k =>
        rw [show (List.replicate (k + 1) dotdot).getLast? = some dotdot from by rw [List.replicate_succ']; simp]
        simp only [if_true]
        rw [← List.replicate_succ']
    rw [this, ih]
    congr 1; omega

theorem foldl_clean {r : Bool} {out : List Bytes} (h : Clean r out) : out.foldl (cleanStep r) [] = out := by
  obtain ⟨k, rest, rfl, hr, hk⟩ := h
  rw [List.foldl_append]
  cases r with
  | true =>
    have := hk rfl
    subst this
    rw [foldl_plain hr]; rfl
  | false =>
    have := foldl_dots 0 k
    simp only [List.replicate_zero, Nat.zero_add] at this
    rw [this, foldl_plain hr]

theorem clean_noslash {r : Bool} {out : List Bytes} (h : Clean r out) : ∀ c ∈ out, slash ∉ c := by
  obtain ⟨k, rest, rfl, hr, hk⟩ := h
  intro c hc
  rcases List.mem_append.1 hc with hc | hc
  · rw [(List.mem_replicate.1 hc).2]; decide
  · exact (hr c hc).2.2.2

theorem clean_ne {r : Bool} {out : List Bytes} (h : Clean r out) : ∀ c ∈ out, c ≠ [] ∧ c ≠ dot := by
  obtain ⟨k, rest, rfl, hr, hk⟩ := h
  intro c hc
  rcases List.mem_append.1 hc with hc | hc
  · rw [(List.mem_replicate.1 hc).2]; decide
  · exact ⟨(hr c hc).1, (hr c hc).2.1⟩

theorem clean_append {r : Bool} {out : List Bytes} (h : Clean r out) {c : Bytes} (hc : Plain c) : Clean r (out ++ [c]) := by
  rw [← step_plain (r := r) hc]; exact clean_step h hc.2.2.2

/-- The parts of a path, and whether it starts at the root. -/
def parts (p : Bytes) : List Bytes := (split p).foldl (cleanStep (rooted p)) []

theorem parts_clean (p : Bytes) : Clean (rooted p) (parts p) := clean_foldl (clean_nil _) (split_mem_noslash p)

theorem glue_head {c : Bytes} {cs : List Bytes} (h : c ≠ []) : (glue (c :: cs)).head? = c.head? := by
  cases c with
  | nil => exact absurd rfl h
  | cons b c => cases cs <;> rfl

theorem rooted_text {r : Bool} {out : List Bytes} (h : Clean r out) : rooted (text r out) = r := by
  unfold rooted text
  cases r with
  | true => simp
  | false =>
    rw [if_neg (by simp)]
    cases out with
    | nil => rfl
    | cons c cs =>
      rw [if_neg (by simp), glue_head (clean_ne h c (by simp)).1]
      have := clean_noslash h c (by simp)
      cases c with
      | nil => rfl
      | cons b c =>
        have : b ≠ slash := fun e => this (by simp [e])
        simpa using this

theorem foldl_text {r : Bool} {out : List Bytes} (h : Clean r out) : (split (text r out)).foldl (cleanStep r) [] = out := by
  have hfold := foldl_clean h
  unfold text
  cases out with
  | nil => cases r <;> rfl
  | cons c cs =>
    cases r with
    | true =>
      rw [if_pos rfl, split, if_pos rfl, List.foldl_cons, split_glue (clean_noslash h) (by simp)]
      exact hfold
    | false =>
      rw [if_neg (by simp), if_neg (by simp), split_glue (clean_noslash h) (by simp)]
      exact hfold

theorem parts_text {r : Bool} {out : List Bytes} (h : Clean r out) : parts (text r out) = out := by
  unfold parts; rw [rooted_text h]; exact foldl_text h

/-- **C81**: cleaning a path again changes nothing. -/
theorem clean_clean (p : Bytes) : clean (clean p) = clean p := by
  show text (rooted (text _ _)) (parts (text _ _)) = text (rooted p) (parts p)
  show text (rooted (text (rooted p) (parts p))) (parts (text (rooted p) (parts p))) = _
  rw [rooted_text (parts_clean p), parts_text (parts_clean p)]

theorem text_ne (r : Bool) {out : List Bytes} (h : Clean r out) : text r out ≠ [] := by
  unfold text
  cases r with
  | true => simp
  | false =>
    cases out with
    | nil => decide
    | cons c cs =>
      rw [if_neg (by simp), if_neg (by simp)]
      intro e
      have := glue_head (cs := cs) (clean_ne h c (by simp)).1
      rw [e] at this
      cases c with
      | nil => exact (clean_ne h [] (by simp)).1 rfl
      | cons b c => simp at this

theorem text_inj {r r' : Bool} {a b : List Bytes} (ha : Clean r a) (hb : Clean r' b) (h : text r a = text r' b) : r = r' ∧ a = b := by
  have h1 := rooted_text ha
  rw [h, rooted_text hb] at h1
  have h2 := parts_text ha
  rw [h, parts_text hb] at h2
  exact ⟨h1.symm, h2.symm⟩

theorem split_slash_foldl (r : Bool) (p x : Bytes) : (split (p ++ slash :: x)).foldl (cleanStep r) [] =
    (split x).foldl (cleanStep r) ((split p).foldl (cleanStep r) []) := by
  rw [split_append, List.foldl_append]

theorem rooted_append {p : Bytes} (h : p ≠ []) (x : Bytes) : rooted (p ++ x) = rooted p := by
  cases p with
  | nil => exact absurd rfl h
  | cons b p => rfl

/-- Joining a name to a clean path. -/
theorem join_name {r : Bool} {out : List Bytes} (h : Clean r out) {c : Bytes} (hc : Plain c) : join [text r out, c] = text r (out ++ [c]) := by
  have hne := text_ne r h
  unfold join
  rw [List.dropWhile_cons_of_neg (by simpa using hne)]
  show clean (text r out ++ slash :: c) = _
  show text (rooted _) _ = _
  rw [rooted_append hne, rooted_text h, split_slash_foldl, foldl_text h, split_noslash hc.2.2.2, List.foldl_cons, step_plain hc]
  rfl

theorem glue_append {a b : List Bytes} (ha : a ≠ []) (hb : b ≠ []) : glue (a ++ b) = glue a ++ slash :: glue b := by
  induction a with
  | nil => exact absurd rfl ha
  | cons c a ih =>
    cases a with
    | nil =>
      cases b with
      | nil => exact absurd rfl hb
      | cons d b => rfl
    | cons d a =>
      show c ++ slash :: glue (d :: a ++ b) = (c ++ slash :: glue (d :: a)) ++ _
      rw [ih (by simp)]; simp

theorem glue_ne_dot {out : List Bytes} (h : ∀ c ∈ out, c ≠ [] ∧ c ≠ dot) (hs : ∀ c ∈ out, slash ∉ c) (hne : out ≠ []) :
    glue out ≠ dot ∧ glue out ≠ [slash] := by
  have hsp := split_glue hs hne
  refine ⟨fun e => ?_, fun e => ?_⟩
  · rw [e] at hsp
    have : dot ∈ out := by rw [← hsp]; decide
    exact (h dot this).2 rfl
  · rw [e] at hsp
    have : ([] : Bytes) ∈ out := by rw [← hsp]; decide
    exact (h [] this).1 rfl

/-- A text of clean parts is a path under the text of the first ones. -/
theorem text_under {r : Bool} {out more : List Bytes} (h : Clean r out) (hm : more ≠ []) :
    text r (out ++ more) = under (text r out) (glue more) := by
  unfold text under
  cases r with
  | true =>
    simp only [if_true]
    rw [if_neg (by simp [dot, slash])]
    cases out with
    | nil => rfl
    | cons c cs =>
      rw [glue_append (by simp) hm, if_neg]
      · rfl
      · intro e
        simp at e
        have := glue_head (cs := cs) (clean_ne h c (by simp)).1
        rw [e] at this
        cases c with
        | nil => exact (clean_ne h [] (by simp)).1 rfl
        | cons b c => simp at this
  | false =>
    simp only [Bool.false_eq_true, if_false]
    rw [if_neg (by simp [hm])]
    cases out with
    | nil => simp
    | cons c cs =>
      simp only [if_neg (List.cons_ne_nil c cs)]
      have := glue_ne_dot (clean_ne h) (clean_noslash h) (by simp)
      rw [if_neg this.1, if_neg this.2, glue_append (by simp) hm]

/-! ## The directories -/

theorem plain_names : Plain dotRq ∧ Plain cacheName ∧ Plain dataName ∧ Plain dbName ∧ Plain indexName := by
  unfold Plain; decide

theorem plain_dec (n : Nat) : Plain (dec n) := by
  have hd := dec_digits n
  have hne : ∀ b : UInt8, ¬ isDigit b → b ∉ dec n := fun b hb hm => hb (hd b hm)
  have h46 : (46 : UInt8) ∉ dec n := hne 46 (by simp [isDigit])
  exact ⟨dec_ne_nil n, fun e => h46 (by rw [e]; decide), fun e => h46 (by rw [e]; decide), hne slash (by simp [isDigit, slash])⟩

theorem join_clean {p : Bytes} {c : Bytes} (hc : Plain c) : join [clean p, c] = text (rooted p) (parts p ++ [c]) := join_name (parts_clean p) hc

theorem join_ne {p : Bytes} (h : p ≠ []) : join [p] = clean p := by
  unfold join
  rw [List.dropWhile_cons_of_neg (by simpa using h)]
  rfl

theorem join_rq (p : Bytes) : join [p, dotRq] = if p = [] then dotRq else text (rooted p) (parts p ++ [dotRq]) := by
  by_cases h : p = []
  · subst h; rfl
  · rw [if_neg h]
    unfold join
    rw [List.dropWhile_cons_of_neg (by simpa using h)]
    show text (rooted (p ++ slash :: dotRq)) ((split (p ++ slash :: dotRq)).foldl (cleanStep (rooted (p ++ slash :: dotRq))) []) = _
    rw [rooted_append h, split_slash_foldl, split_noslash plain_names.1.2.2.2, List.foldl_cons, step_plain plain_names.1]
    rfl

/-- The home directory as parts. -/
theorem home_text (w : World) (arg : Bytes) : ∃ r out, Clean r out ∧ home w [arg] = text r out := by
  unfold home
  by_cases h : arg = []
  · simp only [if_pos h]
    rw [join_rq]
    by_cases hd : dir w = []
    · rw [if_pos hd]
      exact ⟨false, [dotRq], by simpa using clean_append (clean_nil false) plain_names.1, rfl⟩
    · rw [if_neg hd]
      exact ⟨_, _, clean_append (parts_clean _) plain_names.1, rfl⟩
  · simp only [if_neg h]
    rw [join_ne h]
    exact ⟨_, _, parts_clean arg, rfl⟩

theorem db_text {w : World} {arg : Bytes} {r : Bool} {out : List Bytes} (h : Clean r out) (e : home w [arg] = text r out) :
    serverDB w arg = text r (out ++ [dataName, dbName]) ∧ serverIndex w arg = text r (out ++ [dataName, indexName]) := by
  unfold serverDB serverIndex db index data
  have hd := clean_append h plain_names.2.2.1
  rw [e, join_name h plain_names.2.2.1, join_name hd plain_names.2.2.2.1, join_name hd plain_names.2.2.2.2]
  simp

/-- **C81**: the directories of a server. -/
theorem C81_server (w : World) (arg : Bytes) :
    serverDB w arg = under (home w [arg]) (ascii "data/db") ∧ serverIndex w arg = under (home w [arg]) (ascii "data/index") ∧
    cache w [arg] = under (home w [arg]) (ascii "cache") := by
  obtain ⟨r, out, h, e⟩ := home_text w arg
  obtain ⟨h1, h2⟩ := db_text h e
  rw [h1, h2, text_under h (by simp), text_under h (by simp), e]
  refine ⟨rfl, rfl, ?_⟩
  unfold cache
  rw [e, join_name h plain_names.2.1, text_under h (by simp)]
  rfl

/-- **C81**: the home directory: the argument, cleaned; without one, `.rq` in the user's home directory, or, if that is not known, in the
current directory. -/
theorem C81_home (w : World) :
    (∀ arg, arg ≠ [] → home w [arg] = clean arg) ∧ home w [] = home w [[]] ∧
    (dir w ≠ [] → home w [[]] = under (clean (dir w)) (ascii ".rq")) ∧ (dir w = [] → home w [[]] = ascii ".rq") := by
  refine ⟨fun arg h => ?_, rfl, fun h => ?_, fun h => ?_⟩
  · show (if arg = [] then _ else join [arg]) = _
    rw [if_neg h, join_ne h]
  · show join [dir w, dotRq] = _
    rw [join_rq, if_neg h, text_under (parts_clean _) (by simp)]
    rfl
  · show join [dir w, dotRq] = _
    rw [join_rq, if_pos h]
    rfl

/-- **C81**: database, index and cache of a home directory are three different directories, none inside another, all inside it. -/
theorem C81_apart (w : World) (arg : Bytes) (a b : Bytes) (ha : a ∈ [serverDB w arg, serverIndex w arg, cache w [arg]])
    (hb : b ∈ [serverDB w arg, serverIndex w arg, cache w [arg]]) :
    (Within a b → a = b) ∧ Within a (home w [arg]) ∧ serverDB w arg ≠ serverIndex w arg ∧ serverDB w arg ≠ cache w [arg] ∧ serverIndex w arg ≠ cache w [arg] := by
  obtain ⟨h1, h2, h3⟩ := C81_server w arg
  have hin : Within a (home w [arg]) := by
    simp only [List.mem_cons, List.not_mem_nil, or_false] at ha
    rcases ha with rfl | rfl | rfl
    · exact Or.inr ⟨_, h1⟩
    · exact Or.inr ⟨_, h2⟩
    · exact Or.inr ⟨_, h3⟩
  have hx1 : ascii "data/db" = [100, 97, 116, 97, 47, 100, 98] := rfl
  have hx2 : ascii "data/index" = [100, 97, 116, 97, 47, 105, 110, 100, 101, 120] := rfl
  have hx3 : ascii "cache" = [99, 97, 99, 104, 101] := rfl
  rw [hx1] at h1; rw [hx2] at h2; rw [hx3] at h3
  generalize home w [arg] = d at h1 h2 h3 hin
  have hun : ∀ x y : Bytes, under d x = under d y → x = y := by
    intro x y e
    unfold under at e
    by_cases e1 : d = dot
    · simpa [e1] using e
    · by_cases e2 : d = [slash]
      · subst e2; simpa [show ([slash] : Bytes) ≠ dot from by decide] using e
      · simpa [e1, e2] using e
  have hne : serverDB w arg ≠ serverIndex w arg ∧ serverDB w arg ≠ cache w [arg] ∧ serverIndex w arg ≠ cache w [arg] := by
    rw [h1, h2, h3]
    exact ⟨fun e => by simpa using hun _ _ e, fun e => by simpa using hun _ _ e, fun e => by simpa using hun _ _ e⟩
  have hasc : ∀ y x : Bytes, y ≠ dot → y ≠ [] → y.head? ≠ some slash → under (under d y) x = under d (y ++ slash :: x) := by
    intro y x hy hy0 hys
    have hl : 0 < y.length := List.length_pos_iff.2 hy0
    have hy1 : y ≠ [slash] := fun e => hys (by rw [e]; rfl)
    unfold under
    by_cases e1 : d = dot
    · simp [e1, hy, hy1]
    · by_cases e2 : d = [slash]
      · simp only [e2, if_true, show ([slash] : Bytes) ≠ dot from by decide, if_false]
        rw [if_neg (by simp [dot, slash]), if_neg (by simpa using hy0)]
        simp
      · simp only [e1, e2, if_false]
        have hlen : 2 ≤ (d ++ slash :: y).length := by simp; omega
        rw [if_neg (fun e => by rw [e] at hlen; simp [dot] at hlen), if_neg (fun e => by rw [e] at hlen; simp at hlen)]
        simp
  refine ⟨fun h => ?_, hin, hne⟩
  rcases h with h | ⟨x, h⟩
  · exact h
  · exfalso
    simp only [List.mem_cons, List.not_mem_nil, or_false] at ha hb
    have key : ∀ y : Bytes, (y = [100, 97, 116, 97, 47, 100, 98] ∨ y = [100, 97, 116, 97, 47, 105, 110, 100, 101, 120] ∨ y = [99, 97, 99, 104, 101]) →
        ∀ z : Bytes, (z = [100, 97, 116, 97, 47, 100, 98] ∨ z = [100, 97, 116, 97, 47, 105, 110, 100, 101, 120] ∨ z = [99, 97, 99, 104, 101]) →
        under d z ≠ under (under d y) x := by
      intro y hy z hz e
      rw [hasc y x (by rcases hy with rfl | rfl | rfl <;> decide) (by rcases hy with rfl | rfl | rfl <;> decide)
        (by rcases hy with rfl | rfl | rfl <;> decide)] at e
      have e := hun _ _ e
      rcases hy with rfl | rfl | rfl <;> rcases hz with rfl | rfl | rfl <;> simp [slash] at e
    have ha' : ∃ z : Bytes, (z = [100, 97, 116, 97, 47, 100, 98] ∨ z = [100, 97, 116, 97, 47, 105, 110, 100, 101, 120] ∨ z = [99, 97, 99, 104, 101]) ∧ a = under d z := by
      rcases ha with rfl | rfl | rfl
      · exact ⟨_, Or.inl rfl, h1⟩
      · exact ⟨_, Or.inr (Or.inl rfl), h2⟩
      · exact ⟨_, Or.inr (Or.inr rfl), h3⟩
    have hb' : ∃ z : Bytes, (z = [100, 97, 116, 97, 47, 100, 98] ∨ z = [100, 97, 116, 97, 47, 105, 110, 100, 101, 120] ∨ z = [99, 97, 99, 104, 101]) ∧ b = under d z := by
      rcases hb with rfl | rfl | rfl
      · exact ⟨_, Or.inl rfl, h1⟩
      · exact ⟨_, Or.inr (Or.inl rfl), h2⟩
      · exact ⟨_, Or.inr (Or.inr rfl), h3⟩
    obtain ⟨z, hz, rfl⟩ := ha'
    obtain ⟨y, hy, rfl⟩ := hb'
    exact key y hy z hz h

/-- **C81**: two servers, or two runs of one, use the same database exactly if they use the same index, which is exactly if their arguments
clean to the same path. -/
theorem C81_same (w w' : World) (a b : Bytes) :
    (serverDB w a = serverDB w' b ↔ home w [a] = home w' [b]) ∧ (serverIndex w a = serverIndex w' b ↔ home w [a] = home w' [b]) ∧
    serverDB w a ≠ serverIndex w' b ∧ (a ≠ [] → b ≠ [] → (serverDB w a = serverDB w' b ↔ clean a = clean b)) := by
  obtain ⟨r, out, h, e⟩ := home_text w a
  obtain ⟨r', out', h', e'⟩ := home_text w' b
  obtain ⟨h1, h2⟩ := db_text h e
  obtain ⟨h1', h2'⟩ := db_text h' e'
  have two : ∀ {c d : Bytes} {r : Bool} {o : List Bytes}, Clean r o → Plain c → Plain d → Clean r (o ++ [c, d]) := by
    intro c d r o ho hc hd
    simpa using clean_append (clean_append ho hc) hd
  have hm : ∀ d d', Plain d → Plain d' → text r (out ++ [dataName, d]) = text r' (out' ++ [dataName, d']) → (r = r' ∧ out = out') ∧ d = d' := by
    intro d d' hd hd' he
    obtain ⟨hr, ho⟩ := text_inj (two h plain_names.2.2.1 hd) (two h' plain_names.2.2.1 hd') he
    obtain ⟨ho1, ho2⟩ := List.append_inj' ho rfl
    simp at ho2
    exact ⟨⟨hr, ho1⟩, ho2⟩
  have hdb : serverDB w a = serverDB w' b ↔ home w [a] = home w' [b] := by
    rw [h1, h1', e, e']
    constructor
    · intro he
      obtain ⟨⟨hr, ho⟩, _⟩ := hm _ _ plain_names.2.2.2.1 plain_names.2.2.2.1 he
      rw [hr, ho]
    · intro he
      obtain ⟨hr, ho⟩ := text_inj h h' he
      rw [hr, ho]
  refine ⟨hdb, ?_, ?_, ?_⟩
  · rw [h2, h2', e, e']
    constructor
    · intro he
      obtain ⟨⟨hr, ho⟩, _⟩ := hm _ _ plain_names.2.2.2.2 plain_names.2.2.2.2 he
      rw [hr, ho]
    · intro he
      obtain ⟨hr, ho⟩ := text_inj h h' he
      rw [hr, ho]
  · rw [h1, h2']
    intro he
    exact absurd (hm _ _ plain_names.2.2.2.1 plain_names.2.2.2.2 he).2 (by decide)
  · intro ha hb
    rw [hdb, (C81_home w).1 a ha, (C81_home w').1 b hb]

/-- **C81**: spellings of a path that clean to the same: a slash at the end, `./` at the front, `//`, `/./` and `/name/../` inside. -/
theorem C81_spelling (a b c : Bytes) (ha : a ≠ []) (hc : Plain c) :
    clean (clean a) = clean a ∧ clean (a ++ [slash]) = clean a ∧ (rooted a = false → clean (dot ++ slash :: a) = clean a) ∧
    clean (a ++ slash :: slash :: b) = clean (a ++ slash :: b) ∧
    clean (a ++ slash :: (dot ++ slash :: b)) = clean (a ++ slash :: b) ∧
    clean (a ++ slash :: (c ++ slash :: (dotdot ++ slash :: b))) = clean (a ++ slash :: b) := by
  have one : ∀ x, clean (a ++ slash :: x) = text (rooted a) ((split x).foldl (cleanStep (rooted a)) (parts a)) := by
    intro x
    show text (rooted (a ++ slash :: x)) _ = _
    rw [rooted_append ha, split_slash_foldl]
    rfl
  refine ⟨clean_clean a, ?_, ?_, ?_, ?_, ?_⟩
  · rw [one]; rfl
  · intro hr
    show text (rooted (dot ++ slash :: a)) ((split (dot ++ slash :: a)).foldl _ []) = text (rooted a) _
    rw [rooted_append (by decide), split_slash_foldl, hr]
    rfl
  · rw [one, one]; rfl
  · rw [one, one, split_append]; rfl
  · rw [one, one, split_append, split_append, List.foldl_append, List.foldl_append, split_noslash hc.2.2.2, List.foldl_cons, List.foldl_nil,
      step_plain hc]
    have hdd : (split dotdot).foldl (cleanStep (rooted a)) (parts a ++ [c]) = parts a := by
      show cleanStep (rooted a) (parts a ++ [c]) dotdot = _
      unfold cleanStep
      rw [if_neg (by decide), if_pos rfl, List.getLast?_concat]
      simp only [if_neg hc.2.2.1, List.dropLast_concat]
    rw [hdd]

/-- **C81**: every shard has a file of its own, in the index directory of its server. -/
theorem C81_shards (w w' : World) (a b : Bytes) (s t : UInt64) :
    shardFile w a s = under (serverIndex w a) (dec s.toNat) ∧
    (shardFile w a s = shardFile w' b t ↔ serverIndex w a = serverIndex w' b ∧ s = t) := by
  obtain ⟨r, out, h, e⟩ := home_text w a
  obtain ⟨r', out', h', e'⟩ := home_text w' b
  have h2 := (db_text h e).2
  have h2' := (db_text h' e').2
  have hi : Clean r (out ++ [dataName, indexName]) := by simpa using clean_append (clean_append h plain_names.2.2.1) plain_names.2.2.2.2
  have hi' : Clean r' (out' ++ [dataName, indexName]) := by simpa using clean_append (clean_append h' plain_names.2.2.1) plain_names.2.2.2.2
  unfold shardFile
  rw [h2, h2', join_name hi (plain_dec _), join_name hi' (plain_dec _)]
  refine ⟨by rw [text_under hi (by simp)]; rfl, ?_, ?_⟩
  · intro he
    obtain ⟨hr, ho⟩ := text_inj (clean_append hi (plain_dec _)) (clean_append hi' (plain_dec _)) he
    obtain ⟨ho1, ho2⟩ := List.append_inj' ho rfl
    refine ⟨by rw [hr, ho1], ?_⟩
    simp at ho2
    exact UInt64.toNat_inj.1 (dec_injective ho2)
  · rintro ⟨he, rfl⟩
    obtain ⟨hr, ho⟩ := text_inj hi hi' he
    rw [hr, ho]

/-- **C81**: compiled scripts of different hashes are in different files of the cache directory. -/
theorem C81_scripts (w : World) (s t : UInt64) :
    scriptFile w s = under (cache w []) (dec s.toNat) ∧ (scriptFile w s = scriptFile w t ↔ s = t) := by
  obtain ⟨r, out, h, e⟩ := home_text w []
  have hc : Clean r (out ++ [cacheName]) := clean_append h plain_names.2.1
  have he : cache w [] = text r (out ++ [cacheName]) := by
    show join [home w [[]], cacheName] = _
    rw [e, join_name h plain_names.2.1]
  unfold scriptFile
  rw [he, join_name hc (plain_dec _), join_name hc (plain_dec _)]
  refine ⟨by rw [text_under hc (by simp)]; rfl, ?_, fun h => by rw [h]⟩
  intro he
  obtain ⟨_, ho⟩ := text_inj (clean_append hc (plain_dec _)) (clean_append hc (plain_dec _)) he
  obtain ⟨_, ho2⟩ := List.append_inj' ho rfl
  simp at ho2
  exact UInt64.toNat_inj.1 (dec_injective ho2)

/-! ## The home directory on Windows -/

theorem kubeLoop_spec (w : World) (ps : List Bytes) : kubeLoop w ps = ps.find? fun p => !p.isEmpty && w.kube p := by
  induction ps with
  | nil => rfl
  | cons p ps ih =>
    unfold kubeLoop
    rw [List.find?_cons]
    cases p with
    | nil => simpa using ih
    | cons b p =>
      rw [if_neg (by simp)]
      cases w.kube (b :: p) <;> simp [ih]

/-- A directory the owner may write. -/
def writable (w : World) (p : Bytes) : Bool :=
  match w.stat p with
  | none => false
  | some i => i.isDir && i.writable

theorem pickLoop_spec (w : World) (ps : List Bytes) (s x : Bytes) (hw : x ≠ [] → s ≠ []) :
    pickLoop w s x ps = (((ps.find? fun p => !p.isEmpty && writable w p).or
      ((if x = [] then none else some x).or (ps.find? fun p => !p.isEmpty && (w.stat p).isSome))).or
      ((if s = [] then none else some s).or (ps.find? fun p => !p.isEmpty))).getD [] := by
  induction ps generalizing s x with
  | nil =>
    simp only [pickLoop, List.find?_nil, Option.none_or, Option.or_none]
    by_cases hx : x = []
    · by_cases hs : s = [] <;> simp [hx, hs]
    · simp [hx]
  | cons p ps ih =>
    unfold pickLoop
    cases p with
    | nil => rw [if_pos rfl, ih s x hw]; simp
    | cons b p =>
      rw [if_neg (by simp)]
      simp only [List.find?_cons, List.isEmpty_cons, Bool.not_false, Bool.true_and]
      cases hst : w.stat (b :: p) with
      | none =>
        simp only [show writable w (b :: p) = false from by simp [writable, hst], Option.isSome_none]
        rw [ih _ _ (by intro _; split <;> simp_all)]
        by_cases hs : s = [] <;> simp [hs]
      | some i =>
        simp only [show writable w (b :: p) = (i.isDir && i.writable) from by simp [writable, hst], Option.isSome_some]
        cases hi : (i.isDir && i.writable) with
        | true => simp
        | false =>
          simp only [Bool.false_eq_true, if_false]
          rw [ih _ _ (by intro _; split <;> simp_all)]
          by_cases hs : s = [] <;> by_cases hx : x = [] <;> simp [hs, hx]

/-- **C81**: the home directory on Windows, by the four documented rules; elsewhere `$HOME`. -/
theorem C81_windows (w : World) :
    (w.windows = false → dir w = w.env (ascii "HOME")) ∧
    (w.windows = true → ∀ hm up dp, hm = w.env (ascii "HOME") → up = w.env (ascii "USERPROFILE") →
      dp = (if w.env (ascii "HOMEDRIVE") ≠ [] ∧ w.env (ascii "HOMEPATH") ≠ [] then w.env (ascii "HOMEDRIVE") ++ w.env (ascii "HOMEPATH") else []) →
      dir w = (([hm, dp, up].find? fun p => !p.isEmpty && w.kube p).or
        (([hm, up, dp].find? fun p => !p.isEmpty && writable w p).or
        (([hm, up, dp].find? fun p => !p.isEmpty && (w.stat p).isSome).or
        ([hm, up, dp].find? fun p => !p.isEmpty)))).getD []) := by
  refine ⟨fun h => by simp only [dir, h]; rfl, ?_⟩
  intro h hm up dp e1 e2 e3
  have e1' : w.env HOME = hm := e1.symm
  have e2' : w.env USERPROFILE = up := e2.symm
  have e3' : driveAndPath w = dp := e3.symm
  simp only [dir, h, if_true, e1', e2', e3', kubeLoop_spec, pickLoop_spec w _ [] [] (by simp)]
  cases [hm, dp, up].find? (fun p => !p.isEmpty && w.kube p) with
  | some p => rfl
  | none => simp [Option.or_assoc]

/-! ## Examples -/

/-- A server started with `/var//lib/./rq/`, and one without argument. -/
example : serverDB { env := fun _ => [] } (ascii "/var//lib/./rq/") = ascii "/var/lib/rq/data/db" ∧
    serverIndex { env := fun _ => ascii "/root" } [] = ascii "/root/.rq/data/index" ∧
    serverDB { env := fun _ => [] } [] = ascii ".rq/data/db" ∧ serverDB { env := fun _ => [] } (ascii "../x/..") = ascii "../data/db" ∧
    clean (ascii "/../a/b/../../c") = ascii "/c" ∧ Plain (ascii "data") := by
  unfold Plain
  decide +kernel

end Verif.Pa
