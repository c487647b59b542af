import Verif.Lemmas.Arena
/-! # C69: bytes handed out by an arena -/
namespace Verif.Ar

/-- C69. After any operations on any number of arenas (by any users, arenas going back to the pool and coming from it again, however much
spare room new arrays have), a slice that arena `i` hands out holds the message, the compressed message, or what was written since the
writer; and it goes on to hold that whatever is done, by the holder of the arena or by others, until arena `i` is released. -/
theorem C69 (zip : Bytes → Bytes) {os : List Op} {w w' : W} {o : Op} {i : Nat} {sl : Slice} (h : run zip {} os = some w)
    (hs : step zip w o = some (w', some sl)) (hi : o.arena = some i) :
    w'.read sl = o.content zip (os.foldl (written zip i) []) ∧
    ∀ os' w'', run zip w' os' = some w'' → Op.release i ∉ os' → w''.read sl = o.content zip (os.foldl (written zip i) []) := by
  obtain ⟨B, hs0, g, -⟩ := run_good os good_start h
  obtain ⟨B1, g1⟩ := step_good g hs
  have hm : (i, sl, o.content zip (os.foldl (written zip i) [])) ∈ handedOut zip (fun i => os.foldl (written zip i) []) hs0 o (some sl) := by
    unfold handedOut
    split
    · rename_i j
      exfalso
      obtain ⟨a, -, h⟩ := bind_used hs
      split at h <;> cases h
    · rename_i e
      cases e
      rw [hi]; exact List.mem_cons_self
    · rename_i e; cases e
  refine ⟨(g1.handed _ hm).2.1, fun os' w'' h' hr => ?_⟩
  obtain ⟨B2, hs2, g2, hk⟩ := run_good os' g1 h'
  exact (g2.handed _ (hk _ hm hr)).2.1

/-- What arena `i` is written by an operation. -/
def Op.put (i : Nat) : Op → Bytes
  | .write j p _ => if j = i then p else []
  | _ => []

/-- Nothing but writes to arena `i`, and anything to others. -/
def OnlyWrites (i : Nat) (os : List Op) : Prop := ∀ o ∈ os, o.arena = some i → ∃ p s, o = .write i p s

theorem written_only (zip : Bytes → Bytes) (i : Nat) (os : List Op) : ∀ cur, OnlyWrites i os → os.foldl (written zip i) cur = cur ++ os.flatMap (Op.put i) := by
  induction os with
  | nil => intro cur _; simp
  | cons o os ih =>
    intro cur h
    have h' : OnlyWrites i os := fun x hx => h x (List.mem_cons_of_mem _ hx)
    rw [List.foldl_cons, ih _ h', List.flatMap_cons, ← List.append_assoc]
    congr 1
    by_cases ho : o.arena = some i
    · obtain ⟨p, s, rfl⟩ := h o List.mem_cons_self ho
      simp [written, Op.put]
    · cases o <;> simp [Op.arena] at ho <;> simp [written, Op.put, ho]

/-- C69, the use in dataframe.go:164-258: a writer of arena `i`, writes to it and then its bytes; others use other arenas at the same time. Until
the arena is released (after the commit), the bytes are what was written, in order. -/
theorem C69_writer (zip : Bytes → Bytes) {pre mid post : List Op} {i : Nat} {w w' w'' : W} {sl : Slice}
    (h : run zip {} (pre ++ .newWriter i :: mid) = some w) (hm : OnlyWrites i mid) (hs : step zip w (.bytes i) = some (w', some sl))
    (hp : run zip w' post = some w'') (hr : Op.release i ∉ post) : w''.read sl = mid.flatMap (Op.put i) := by
  rw [(C69 zip h hs rfl).2 post w'' hp hr]
  simp only [Op.content, List.foldl_append, List.foldl_cons]
  rw [written_only zip i mid _ hm]
  simp [written]

/-- Whether an operation is to hand out bytes. -/
def Op.hands : Op → Bool
  | .bytes _ => true
  | .marshal _ _ ok _ => ok
  | .compress _ _ okM okC _ _ _ => okM && okC
  | _ => false

/-- Which operations hand out bytes: `Bytes`, and messages if all goes well. -/
theorem C69_returns (zip : Bytes → Bytes) {w w' : W} {o : Op} {r : Option Slice} (h : step zip w o = some (w', r)) :
    r.isSome = o.hands := by
  cases o with
  | fresh => cases h; rfl
  | new i => obtain ⟨a, -, h⟩ := bind_used h; split at h <;> cases h; rfl
  | newWriter i => obtain ⟨a, -, h⟩ := bind_used h; split at h <;> cases h; rfl
  | write i p s => obtain ⟨a, -, h⟩ := bind_used h; split at h <;> cases h; rfl
  | bytes i => obtain ⟨a, -, h⟩ := bind_used h; split at h <;> cases h; rfl
  | release i => obtain ⟨a, -, h⟩ := bind_used h; split at h <;> cases h; rfl
  | marshal i p ok s => obtain ⟨a, -, h⟩ := bind_used h; split at h <;> cases h; cases ok <;> rfl
  | compress i p okM okC part s s' =>
    obtain ⟨a, -, h⟩ := bind_used h
    split at h
    · cases okM <;> simp only [marshal] at h <;> simp at h
      · rw [← h.2]; rfl
      · unfold squeeze at h
        cases okC <;> simp at h <;> obtain ⟨-, rfl⟩ := h <;> rfl
    · cases h

/-- Two users, a message of one compressed while the other writes, arrays that grow and arrays that do not, an arena from the pool. -/
example : ∃ w w' w'' sl, run List.reverse {} [.fresh, .fresh, .write 1 [9, 9] 4, .marshal 0 [1, 2] true 3, .release 1, .new 1, .newWriter 0] = some w ∧
    step List.reverse w (.compress 0 [5, 6] true true [] 0 1) = some (w', some sl) ∧
    run List.reverse w' [.write 0 [3] 0, .marshal 1 [4, 4] true 0, .release 1, .marshal 0 [8] false 0] = some w'' ∧ w''.read sl = [6, 5] := by
  refine ⟨_, _, _, _, rfl, rfl, rfl, ?_⟩
  decide +kernel

/-- A writer, with writes of others in between. -/
example : ∃ w w' w'' sl, run id {} ([.fresh, .fresh] ++ .newWriter 0 :: [.write 0 [1] 1, .write 1 [7] 0, .write 0 [2, 3] 0]) = some w ∧
    step id w (.bytes 0) = some (w', some sl) ∧ run id w' [.release 1] = some w'' ∧ w''.read sl = [1, 2, 3] := by
  refine ⟨_, _, _, _, rfl, rfl, rfl, ?_⟩
  decide +kernel

/-- Refuted: bytes do not outlive the arena. Released, they are zeros, and then another user's. -/
theorem C69_released : ∃ w w' w1 w2 sl, run id {} [.fresh] = some w ∧ step id w (.marshal 0 [1, 2] true 0) = some (w', some sl) ∧ w'.read sl = [1, 2] ∧
    run id w' [.release 0] = some w1 ∧ w1.read sl = [0, 0] ∧ run id w1 [.new 0, .write 0 [7] 0] = some w2 ∧ w2.read sl = [7, 0] := by
  refine ⟨_, _, _, _, _, rfl, rfl, ?_, rfl, ?_, rfl, ?_⟩ <;> decide +kernel

end Verif.Ar
