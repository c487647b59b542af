import Verif.Lemmas.Arrow
import Verif.Model.ArrowOtlp
/-!
# C55, C56, C57: messages as columns
-/
namespace Verif.A3
variable {Any : Type} (C : Coder Any)

/-- **C55.** For every message type with a schema: messages that are appended come out again, row by row, whatever rows are asked
for, and in the order asked for. -/
theorem C55_round_trip (hC : C.Faithful) {T : Nat → List FieldD} {t : Nat} {n : Node} (h : build T t = some n)
    (ms : List (Val Any n)) (rows : List Nat) (hr : ∀ i ∈ rows, i < ms.length) :
    (proto C n (ms.foldl (append C n) (empty n)) rows).map some = rows.map (ms[·]?) := by
  have hn := build_shape h
  have hrep := rep_foldl C hn ms (rep_empty C n)
  rw [List.nil_append] at hrep
  rw [proto, List.map_map]
  apply List.map_congr_left
  intro i hi
  have hlt := hr i hi
  rw [List.getElem?_eq_getElem hlt]
  exact congrArg some (rep_read C hC n hn _ _ hrep i ms[i] (by simp [hlt]))

/-- **C55.** A record followed by more messages: what was there stays, the new rows follow. -/
theorem C55_grow (hC : C.Faithful) {T : Nat → List FieldD} {t : Nat} {n : Node} (h : build T t = some n)
    (bs : List (List (Val Any n))) (rows : List Nat) (hr : ∀ i ∈ rows, i < bs.flatten.length) :
    (proto C n ((bs.map fun ms => ms.foldl (append C n) (empty n)).foldl (concat n) (empty n)) rows).map some =
      rows.map (bs.flatten[·]?) := by
  have hn := build_shape h
  have hrep : ∀ (bs : List (List (Val Any n))) (a : Arr n) xs, Rep C n a xs →
      Rep C n ((bs.map fun ms => ms.foldl (append C n) (empty n)).foldl (concat n) a) (xs ++ bs.flatten.map some) := by
    intro bs
    induction bs with
    | nil => intro a xs ha; simpa using ha
    | cons ms bs ih =>
      intro a xs ha
      have h1 := rep_foldl C hn ms (rep_empty C n)
      rw [List.nil_append] at h1
      have := ih _ _ (rep_concat C n hn a _ xs _ ha h1)
      simpa using this
  have hrep := hrep bs _ _ (rep_empty C n)
  rw [List.nil_append] at hrep
  rw [proto, List.map_map]
  apply List.map_congr_left
  intro i hi
  have hlt := hr i hi
  rw [List.getElem?_eq_getElem hlt]
  exact congrArg some (rep_read C hC n hn _ _ hrep i bs.flatten[i] (by rw [List.getElem?_map, List.getElem?_eq_getElem hlt]; rfl))

theorem createNodes_fits {T : Nat → List FieldD} {kids : Nat → Option Node} (hk : ∀ t n, kids t = some n → Fits T (T t) n)
    (fs : List FieldD) {n : Node} (h : createNodes kids fs = some n) : Fits T fs n := by
  induction fs generalizing n with
  | nil => simp only [createNodes, Option.some.injEq] at h; subst h; exact .nil
  | cons f fs ih =>
    simp only [createNodes] at h
    cases h1 : createNode kids f with
    | none => simp [h1] at h
    | some p =>
      cases h2 : createNodes kids fs with
      | none => simp [h1, h2] at h
      | some r =>
        simp only [h1, h2, Option.some.injEq] at h
        subst h
        obtain ⟨c, e⟩ := p
        unfold createNode at h1
        by_cases hm : f.map = true
        · simp [hm] at h1
        have hm : f.map = false := by simpa using hm
        simp only [hm, Bool.false_eq_true, if_false] at h1
        refine .cons hm ?_ ?_ (ih h2)
        · cases hf : f.kind with
          | group => simp [hf] at h1
          | msg t =>
            simp only [hf] at h1
            cases hq : kids t with
            | none => simp [hq] at h1
            | some g =>
              simp only [hq, Option.some.injEq, Prod.mk.injEq] at h1
              cases hr : f.repeated <;> simp [hr] at h1 <;> rw [← h1.1] <;> simp [FieldD.Occurs, hr, hf]
          | _ =>
            simp only [hf, Option.some.injEq, Prod.mk.injEq] at h1
            cases hr : f.repeated <;> cases ho : f.oneof <;> simp [hr, ho] at h1 <;> rw [← h1.1] <;> simp [FieldD.Occurs, hr, hf, ho]
        · cases hf : f.kind with
          | group => simp [hf] at h1
          | msg t =>
            simp only [hf] at h1
            cases hq : kids t with
            | none => simp [hq] at h1
            | some g =>
              simp only [hq, Option.some.injEq, Prod.mk.injEq] at h1
              rw [← h1.2]
              exact .msg (hk t g hq)
          | _ =>
            simp only [hf, Option.some.injEq, Prod.mk.injEq] at h1
            rw [← h1.2]
            first | exact .num | exact .text | exact .bytes | exact .any

theorem kidsAt_fits (T : Nat → List FieldD) (k t : Nat) (n : Node) (h : kidsAt T k t = some n) : Fits T (T t) n := by
  induction k generalizing t n with
  | zero =>
    simp only [kidsAt] at h
    split at h
    · rename_i hT
      rw [hT]
      simp only [Option.some.injEq] at h
      rw [← h]
      exact .nil
    · exact (nomatch h)
  | succ k ih => exact createNodes_fits ih _ h

/-- **C55.** The schema has every field of the message type, in order, under its name, with the kind and the cardinality it is
declared with, and so on for the messages in it; so `Val`, whose round trip is shown above, is the type of all its messages. -/
theorem C55_schema {T : Nat → List FieldD} {t : Nat} {n : Node} (h : build T t = some n) : Fits T (T t) n := by
  exact kidsAt_fits T maxDepth t n (build_some h).1

theorem Fits.get {T : Nat → List FieldD} : ∀ (n : Node) {fs : List FieldD}, Fits T fs n → toParquet n = true → ∀ f ∈ fs,
    ∃ e, Holds T f.kind e ∧ toParquet e = true
  | .cons _ _ e r, _, .cons _ _ hh hr, hp, f, hf => by
    rw [toParquet, Bool.and_eq_true] at hp
    rcases List.mem_cons.1 hf with rfl | hf
    · exact ⟨e, hh, hp.1⟩
    · exact Fits.get r hr hp.2 f hf
  | .nil, _, .nil, _, _, hf => nomatch hf

theorem toParquet_msg {fs : Node} (h : toParquet (.msg fs) = true) : fs ≠ .nil ∧ toParquet fs = true := by
  cases fs with
  | nil => exact (nomatch h)
  | _ => exact ⟨nofun, h⟩

theorem toParquet_reach {T : Nat → List FieldD} {t : Nat} {n : Node} (hn : Fits T (T t) n) (hp : toParquet n = true) {d : Nat} {f : FieldD}
    (hr : Reach T t d f) : ∃ e, Holds T f.kind e ∧ toParquet e = true := by
  induction hr with
  | top hf => exact Fits.get n hn hp _ hf
  | step _ hk hf ih =>
    obtain ⟨e, he, hpe⟩ := ih
    rw [hk] at he
    cases he with
    | msg hfs => exact Fits.get _ hfs (toParquet_msg hpe).2 _ hf

theorem toParquet_false {T : Nat → List FieldD} {t : Nat} : ∀ (n : Node) {fs : List FieldD} {d : Nat}, Fits T fs n → toParquet n = false →
    (∀ f ∈ fs, Reach T t d f) → ∃ d f t', Reach T t d f ∧ f.kind = .msg t' ∧ T t' = []
  | .cons _ _ e r, _, d, .cons (f := f) (fs := fs) _ _ hh hr, hp, hf => by
    rw [toParquet, Bool.and_eq_false_iff] at hp
    rcases hp with hp | hp
    · cases e with
      | leaf l => exact (nomatch hp)
      | nil => exact (nomatch hp)
      | cons =>
        generalize f.kind = k at hh
        exact (nomatch hh)
      | msg gs =>
        have hk : ∃ t', f.kind = .msg t' ∧ Fits T (T t') gs := by
          generalize f.kind = k at hh
          cases hh with
          | msg h => exact ⟨_, rfl, h⟩
        obtain ⟨t', hk, hgs⟩ := hk
        have hf0 := hf f (List.mem_cons_self ..)
        by_cases hnil : gs = .nil
        · rw [hnil] at hgs
          refine ⟨d, f, t', hf0, hk, ?_⟩
          generalize T t' = l at hgs
          cases hgs
          rfl
        · refine toParquet_false gs (d := d + 1) hgs ?_ fun g hg => .step hf0 hk hg
          cases gs with
          | nil => exact absurd rfl hnil
          | _ => exact hp
    · exact toParquet_false r hr hp fun g hg => hf g (List.mem_cons_of_mem _ hg)
  | .nil, _, _, .nil, hp, _ => nomatch hp

/-- **C56.** Making the schema always ends, and fails exactly for types with a map, a group, nesting of more than ten levels, or, in a
field, a message type without fields. -/
theorem C56_supported (T : Nat → List FieldD) (t : Nat) :
    build T t = none ↔
      ∃ d f, Reach T t d f ∧ (10 ≤ d ∨ f.map = true ∨ f.kind = .group ∨ ∃ t', f.kind = .msg t' ∧ T t' = []) := by
  unfold build
  have h0 := kidsAt_none T 10 t
  rw [show maxDepth = 10 from rfl]
  cases hk : kidsAt T 10 t with
  | none =>
    obtain ⟨d, f, hr, h⟩ := h0.1 hk
    refine iff_of_true rfl ⟨d, f, hr, ?_⟩
    rcases h with h | h | h
    · exact .inl h
    · exact .inr (.inl h)
    · exact .inr (.inr (.inl h))
  | some n =>
    have hfit := kidsAt_fits T 10 t n hk
    cases hp : toParquet n with
    | false =>
      obtain ⟨d, f, t', hr, h⟩ := toParquet_false (t := t) n hfit hp fun f hf => .top hf
      exact iff_of_true (by simp [hp]) ⟨d, f, hr, .inr (.inr (.inr ⟨t', h⟩))⟩
    | true =>
      refine iff_of_false (by simp [hp]) ?_
      rintro ⟨d, f, hr, h⟩
      have hno : ¬ (10 ≤ d ∨ f.map = true ∨ f.kind = .group) := fun h' => by
        have := h0.2 ⟨d, f, hr, h'⟩
        rw [hk] at this
        exact nomatch this
      rcases h with h | h | h | ⟨t', hk', hT⟩
      · exact hno (.inl h)
      · exact hno (.inr (.inl h))
      · exact hno (.inr (.inr h))
      · obtain ⟨e, he, hpe⟩ := toParquet_reach hfit hp hr
        rw [hk'] at he
        cases he with
        | msg hfs =>
          rw [hT] at hfs
          cases hfs
          exact nomatch hpe

/-- **C56.** So it fails for every type that holds itself, however indirectly. -/
theorem C56_recursive (T : Nat → List FieldD) (t : Nat) (d : Nat) (f : FieldD) (h : Reach T t d f) (hf : f.kind = .msg t) :
    build T t = none := by
  rw [C56_supported]
  have hdeep : ∀ k, ∃ d', k ≤ d' ∧ Reach T t d' f := by
    intro k
    induction k with
    | zero => exact ⟨d, Nat.zero_le _, h⟩
    | succ k ih =>
      obtain ⟨d', hk, hr⟩ := ih
      have hjoin : ∀ d g, Reach T t d g → Reach T t (d' + 1 + d) g := by
        intro d g hg
        induction hg with
        | top hm => exact .step hr hf hm
        | step _ hk' hm ih => exact .step ih hk' hm
      exact ⟨d' + 1 + d, by omega, hjoin d f h⟩
  obtain ⟨d', hk, hr⟩ := hdeep 10
  exact ⟨d', f, hr, .inl hk⟩

/-- **C56.** The stored messages have a schema. -/
theorem C56_data : (build otlp 0).isSome = true := by decide +kernel

/-- The schema of the stored messages. -/
def dataNode : Node := (build otlp 0).get C56_data

theorem dataNode_eq : build otlp 0 = some dataNode := (Option.some_get C56_data).symm

/-- **C56.** A type with a field of an empty message type has none. -/
theorem C56_hollow : build (fun t => if t = 0 then [one "id" .num, maybe "flag" (.msg 1)] else []) 0 = none := by decide +kernel

/-- **C56.** A type that holds itself has none. -/
theorem C56_looped : build looped 0 = none :=
  C56_recursive looped 0 0 (one "next" (.msg 0)) (.top (by simp [looped])) rfl

instance : DecidablePred TopMessages := go where
  go : (n : Node) → Decidable (TopMessages n)
    | .nil => isTrue trivial
    | .cons name _ (.msg fs) r =>
      have := go r
      inferInstanceAs (Decidable (46 ∉ name ∧ paths [] fs ≠ [] ∧ TopMessages r))
    | .cons _ _ (.leaf _) _ => isFalse id
    | .cons _ _ .nil _ => isFalse id
    | .cons _ _ (.cons ..) _ => isFalse id
    | .leaf _ => isFalse id
    | .msg _ => isFalse id

/-- **C57.** The columns chosen for a signal are exactly the columns of that field: all of them, and no others. -/
theorem C57_columns {n : Node} (hn : TopMessages n) {signal : Bytes} (hs : 46 ∉ signal) :
    columns n signal = ((columnsOf 0 n).filter fun p => decide (signal = p.1)).flatMap (·.2) := pick_columns hs n hn 0

/-- **C57.** Reading a signal's columns gives each message with every other field cleared. -/
theorem C57_read (hC : C.Faithful) {T : Nat → List FieldD} {t : Nat} {n : Node} (h : build T t = some n) (hn : TopMessages n)
    {signal : Bytes} (hs : 46 ∉ signal) (ms : List (Val Any n)) (i : Nat) (m : Val Any n) (hi : ms[i]? = some m) :
    readColumns C (columns n signal) n (ms.foldl (append C n) (empty n)) i = only C (fun x => decide (x = signal)) n m := by
  have hsh := build_shape h
  have hrep := rep_foldl C hsh ms (rep_empty C n)
  rw [List.nil_append] at hrep
  unfold readColumns
  rw [readSome_congr C (keep' := fun x => decide (x = signal)) n ?_ _ i]
  · exact readSome_only C hC _ n hsh _ _ hrep i m (by simp [hi])
  · intro x hx
    rw [C57_columns hn hs, Bool.eq_iff_iff, List.any_eq_true, decide_eq_true_iff]
    constructor
    · rintro ⟨p, hp, hq⟩
      rw [Bool.and_eq_true, beq_iff_eq, List.any_eq_true] at hq
      obtain ⟨rfl, c, hc, hcc⟩ := hq
      rw [List.contains_iff_mem, List.mem_flatMap] at hcc
      obtain ⟨q, hq, hcq⟩ := hcc
      rw [List.mem_filter, decide_eq_true_iff] at hq
      rw [columnsOf_lt (k := []) n 0 p hp q hq.1 c hc hcq]
      exact hq.2.symm
    · rintro rfl
      rw [← columnsOf_names n 0, List.mem_map] at hx
      obtain ⟨p, hp, rfl⟩ := hx
      obtain ⟨c, hc⟩ := List.exists_mem_of_ne_nil _ (columnsOf_ne n hn 0 p hp)
      refine ⟨p, hp, ?_⟩
      rw [Bool.and_eq_true, beq_iff_eq, List.any_eq_true]
      refine ⟨rfl, c, hc, ?_⟩
      rw [List.contains_iff_mem, List.mem_flatMap]
      exact ⟨p, by simp [hp], hc⟩

theorem dataNode_top : TopMessages dataNode := by decide +kernel

/-- **C57.** So it is for the metrics, logs and traces of the stored messages. -/
theorem C57_data (hC : C.Faithful) {signal : Bytes} (hs : signal ∈ [ascii "metrics", ascii "logs", ascii "traces"])
    (ms : List (Val Any dataNode)) (i : Nat) (m : Val Any dataNode) (hi : ms[i]? = some m) :
    readColumns C (columns dataNode signal) dataNode (ms.foldl (append C dataNode) (empty dataNode)) i =
      only C (fun x => decide (x = signal)) dataNode m := by
  refine C57_read C hC dataNode_eq dataNode_top ?_ ms i m hi
  have : ∀ s ∈ [ascii "metrics", ascii "logs", ascii "traces"], 46 ∉ s := by decide +kernel
  exact this signal hs

/-- Non-vacuity, and a check of `otlp` against the three schema files in internal/arrow3/testdata: as many columns as they list. -/
theorem C57_counts : [ascii "metrics", ascii "logs", ascii "traces"].map (fun s => (columns dataNode s).length) = [97, 21, 38] := by
  decide +kernel

/-! Non-vacuity: a type with lists of messages, bytes, an optional number and an `AnyValue`. -/

def toy : Nat → List FieldD
  | 0 => [one "id" .bytes, many "rows" (.msg 1), maybe "n" .num]
  | 1 => [one "key" .text, one "value" .any, many "xs" .num]
  | _ => []

def toyNode : Node := (build toy 0).get (by decide +kernel)
theorem toyNode_eq : build toy 0 = some toyNode := (Option.some_get _).symm

def toyCoder : Coder Bytes := ⟨fun b => 0 :: b, fun b => b.drop 1⟩
theorem toyCoder_faithful : toyCoder.Faithful := fun _ => rfl

def toyMsgs : List (Val Bytes toyNode) :=
  [([1, 2], [([97], some [5], [1, 2, 3], ()), ([98], none, [], ())], none, ()), ([], [], some 0, ()), ([], [([], some [], [4], ())], some 7, ())]

example : proto toyCoder toyNode (toyMsgs.foldl (append toyCoder toyNode) (empty toyNode)) [2, 0, 1] =
    [toyMsgs[2], toyMsgs[0], toyMsgs[1]] := by
  have := C55_round_trip toyCoder toyCoder_faithful toyNode_eq toyMsgs [2, 0, 1] (by decide)
  have h2 : List.map some [toyMsgs[2], toyMsgs[0], toyMsgs[1]] = [2, 0, 1].map (toyMsgs[·]?) := rfl
  rw [← h2] at this
  exact List.map_injective_iff.2 (fun _ _ => Option.some.inj) this

example : proto toyCoder toyNode (toyMsgs.foldl (append toyCoder toyNode) (empty toyNode)) [2, 0, 1] =
    [toyMsgs[2], toyMsgs[0], toyMsgs[1]] := rfl

end Verif.A3
