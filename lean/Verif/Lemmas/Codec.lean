import Verif.Spec.Codec
/-! # Pools of codecs -/
namespace Verif.Cd

/-- Every object is in the pool or with one user, once. -/
structure Pool.Ok {α : Type} (p : Pool α) : Prop where
  nodup : p.free.Nodup
  lt : ∀ e ∈ p.free, e < p.objs.length
  one : ∀ (s t : Nat) e, p.held[s]? = some (some e) → p.held[t]? = some (some e) → s = t
  apart : ∀ (s : Nat) e, p.held[s]? = some (some e) → e < p.objs.length ∧ e ∉ p.free

/-- What all users see: as if each had its own. -/
def Pool.abs {α : Type} (p : Pool α) : List (Option α) := p.held.map fun
  | none => none
  | some e => p.objs[e]?

theorem see_abs {α : Type} (p : Pool α) (s : Nat) : p.see s = p.abs[s]? := by
  unfold Pool.see Pool.abs
  rw [List.getElem?_map]
  cases p.held[s]? with
  | none => rfl
  | some x => cases x <;> rfl

theorem held_append {l : List (Option Nat)} {x : Option Nat} {s : Nat} {e : Nat} (h : (l ++ [x])[s]? = some (some e)) :
    (s < l.length ∧ l[s]? = some (some e)) ∨ (s = l.length ∧ x = some e) := by
  by_cases hl : s < l.length
  · rw [List.getElem?_append_left hl] at h; exact .inl ⟨hl, h⟩
  · have := (List.getElem?_eq_some_iff.1 h).1
    simp at this
    have hs : s = l.length := by omega
    subst hs
    simp at h
    exact .inr ⟨rfl, h⟩

theorem held_set {l : List (Option Nat)} {i s e : Nat} (h : (l.set i none)[s]? = some (some e)) : s ≠ i ∧ l[s]? = some (some e) := by
  rw [List.getElem?_set] at h
  by_cases hij : i = s
  · subst hij; rw [if_pos rfl] at h; split at h <;> simp at h
  · rw [if_neg hij] at h; exact ⟨Ne.symm hij, h⟩

/-- Changing an object none of these users hold does not change what they see. -/
theorem map_set {α : Type} (objs : List α) (e : Nat) (x : α) (l : List (Option Nat)) (h : ∀ y ∈ l, y ≠ some e) :
    (l.map fun | none => none | some f => (objs.set e x)[f]?) = l.map fun | none => none | some f => objs[f]? := by
  apply List.map_congr_left
  intro y hy
  cases y with
  | none => rfl
  | some f =>
    have : f ≠ e := fun hf => h _ hy (by rw [hf])
    simp only
    rw [List.getElem?_set_ne (Ne.symm this)]

theorem take_ok {α : Type} {p p' : Pool α} (h : p.Ok) {x : α} {pick : Option Nat} (ht : p.take x pick = some p') : p'.Ok ∧ p'.abs = p.abs ++ [some x] := by
  cases pick with
  | none =>
    cases ht
    refine ⟨⟨h.nodup, fun e he => ?_, fun s t e hs ht => ?_, fun s e hs => ?_⟩, ?_⟩
    · have := h.lt e he; simp; omega
    · rcases held_append hs with ⟨h1, h2⟩ | ⟨h1, h2⟩ <;> rcases held_append ht with ⟨h3, h4⟩ | ⟨h3, h4⟩
      · exact h.one s t e h2 h4
      · have := (h.apart s e h2).1; cases h4; omega
      · have := (h.apart t e h4).1; cases h2; omega
      · omega
    · rcases held_append hs with ⟨h1, h2⟩ | ⟨h1, h2⟩
      · have := h.apart s e h2; exact ⟨by simp; omega, this.2⟩
      · cases h2; exact ⟨by simp, fun he => absurd (h.lt _ he) (by omega)⟩
    · unfold Pool.abs
      simp only [List.map_append, List.map_cons, List.map_nil]
      congr 1
      · apply List.map_congr_left
        intro y hy
        cases y with
        | none => rfl
        | some f =>
          obtain ⟨s, hs⟩ := List.getElem?_of_mem hy
          simp only
          rw [List.getElem?_append_left (h.apart s f hs).1]
      · simp
  | some e =>
    unfold Pool.take at ht
    by_cases he : e ∈ p.free
    · simp only [if_pos he] at ht
      cases ht
      have hnot : ∀ s : Nat, p.held[s]? ≠ some (some e) := fun s hs => (h.apart s e hs).2 he
      refine ⟨⟨h.nodup.erase e, fun f hf => ?_, fun s t f hs ht => ?_, fun s f hs => ?_⟩, ?_⟩
      · simpa using h.lt f (List.mem_of_mem_erase hf)
      · rcases held_append hs with ⟨h1, h2⟩ | ⟨h1, h2⟩ <;> rcases held_append ht with ⟨h3, h4⟩ | ⟨h3, h4⟩
        · exact h.one s t f h2 h4
        · cases h4; exact absurd h2 (hnot s)
        · cases h2; exact absurd h4 (hnot t)
        · omega
      · rcases held_append hs with ⟨h1, h2⟩ | ⟨h1, h2⟩
        · have := h.apart s f h2; exact ⟨by simpa using this.1, fun hm => this.2 (List.mem_of_mem_erase hm)⟩
        · cases h2; exact ⟨by simpa using h.lt _ he, fun hm => absurd rfl ((h.nodup.mem_erase_iff.1 hm).1)⟩
      · unfold Pool.abs
        simp only [List.map_append, List.map_cons, List.map_nil]
        congr 1
        · refine map_set _ _ _ _ fun y hy hy' => ?_
          obtain ⟨s, hs⟩ := List.getElem?_of_mem hy
          exact hnot s (by rw [hs, hy'])
        · simp [h.lt e he]
    · simp only [if_neg he] at ht; cases ht

theorem see_held {α : Type} {p : Pool α} {s : Nat} {x : α} (h : p.see s = some (some x)) : ∃ e, p.held[s]? = some (some e) ∧ p.objs[e]? = some x := by
  unfold Pool.see at h
  cases hs : p.held[s]? with
  | none => rw [hs] at h; cases h
  | some y =>
    cases y with
    | none => rw [hs] at h; cases h
    | some e => rw [hs] at h; exact ⟨e, rfl, Option.some.inj h⟩

theorem put_ok {α : Type} {p : Pool α} (h : p.Ok) {s : Nat} {x : α} (y : α) (hs : p.see s = some (some x)) :
    (p.put s y).Ok ∧ (p.put s y).abs = p.abs.set s (some y) := by
  obtain ⟨e, he, -⟩ := see_held hs
  unfold Pool.put
  rw [he]
  refine ⟨⟨h.nodup, fun f hf => by simpa using h.lt f hf, h.one, fun t f hf => ⟨by simpa using (h.apart t f hf).1, (h.apart t f hf).2⟩⟩, ?_⟩
  apply List.ext_getElem?
  intro t
  unfold Pool.abs
  simp only [List.getElem?_map, List.getElem?_set, List.length_map]
  by_cases ht : s = t
  · subst ht
    have hl := (List.getElem?_eq_some_iff.1 he).1
    rw [if_pos rfl, if_pos hl, he]
    simp [(h.apart s e he).1]
  · rw [if_neg ht]
    cases hk : p.held[t]? with
    | none => rfl
    | some z =>
      cases z with
      | none => rfl
      | some f =>
        have : f ≠ e := by rintro rfl; exact ht (h.one s t f he hk)
        simp [Ne.symm this]

theorem giveBack_ok {α : Type} {p : Pool α} (h : p.Ok) {s : Nat} {x : α} (y : α) (hs : p.see s = some (some x)) :
    (p.giveBack s y).Ok ∧ (p.giveBack s y).abs = p.abs.set s none := by
  obtain ⟨e, he, -⟩ := see_held hs
  unfold Pool.giveBack
  rw [he]
  refine ⟨⟨List.nodup_cons.2 ⟨(h.apart s e he).2, h.nodup⟩, fun f hf => ?_, fun t u f ht hu => ?_, fun t f hf => ?_⟩, ?_⟩
  · rcases List.mem_cons.1 hf with rfl | hf
    · simpa using (h.apart s f he).1
    · simpa using h.lt f hf
  · exact h.one t u f (held_set ht).2 (held_set hu).2
  · obtain ⟨hts, hf2⟩ := held_set hf
    refine ⟨by simpa using (h.apart t f hf2).1, fun hm => ?_⟩
    rcases List.mem_cons.1 hm with e2 | hm
    · exact hts (h.one t s e (by rw [hf2, e2]) he)
    · exact (h.apart t f hf2).2 hm
  · apply List.ext_getElem?
    intro t
    unfold Pool.abs
    simp only [List.getElem?_map, List.getElem?_set, List.length_map]
    by_cases ht : s = t
    · subst ht
      have hl := (List.getElem?_eq_some_iff.1 he).1
      rw [if_pos rfl, if_pos hl, if_pos rfl, if_pos hl]; rfl
    · rw [if_neg ht, if_neg ht]
      cases hk : p.held[t]? with
      | none => rfl
      | some z =>
        cases z with
        | none => rfl
        | some f =>
          have : f ≠ e := by rintro rfl; exact ht (h.one s t f he hk)
          simp [Ne.symm this]

/-- What user `s` of `Compress` and its writer see after the operations `os`. -/
def EncOk (zip : Bytes → Bytes) (w : W) (os : List Op) (s : Nat) : Prop :=
  (.close s ∈ os ∧ w.encs.see s = some none ∧ w.sinks[s]? = some (zip (sent s os))) ∨
  (.close s ∉ os ∧ w.encs.see s = some (some { to := some s, acc := sent s os }) ∧ w.sinks[s]? = some [])

/-- What user `r` of `Decompress` sees. -/
def DecOk (unzip : Bytes → Bytes) (w : W) (tr : List (Op × Bytes)) (os : List Op) (r : Nat) (d : Bytes) : Prop :=
  (ended r os ∧ w.decs.see r = some none ∧ got r tr = unzip d) ∨ (¬ ended r os ∧ ∃ left, w.decs.see r = some (some left) ∧ got r tr ++ left = unzip d)

structure EInv (zip : Bytes → Bytes) (w : W) (os : List Op) : Prop where
  eok : w.encs.Ok
  elen : w.encs.abs.length = writers os ∧ w.sinks.length = writers os
  enone : ∀ s, writers os ≤ s → sent s os = [] ∧ .close s ∉ os
  enc : ∀ s, s < writers os → EncOk zip w os s

structure DInv (unzip : Bytes → Bytes) (w : W) (tr : List (Op × Bytes)) (os : List Op) : Prop where
  dok : w.decs.Ok
  dlen : w.decs.abs.length = (inputs os).length
  dnone : ∀ r, (inputs os).length ≤ r → got r tr = [] ∧ ¬ ended r os
  dec : ∀ (r : Nat) d, (inputs os)[r]? = some d → DecOk unzip w tr os r d

theorem sent_append (s : Nat) (os : List Op) (o : Op) : sent s (os ++ [o]) = sent s os ++ sent s [o] := by simp [sent]

theorem writers_append (os : List Op) (o : Op) : writers (os ++ [o]) = writers os + writers [o] := by simp [writers]

theorem inputs_append (os : List Op) (o : Op) : inputs (os ++ [o]) = inputs os ++ inputs [o] := by simp [inputs]

theorem got_append (r : Nat) (tr : List (Op × Bytes)) (x : Op × Bytes) : got r (tr ++ [x]) = got r tr ++ got r [x] := by simp [got]

theorem ended_append (r : Nat) (os : List Op) (o : Op) : ended r (os ++ [o]) ↔ ended r os ∨ ended r [o] := by
  simp only [ended, List.mem_append, List.mem_singleton]
  constructor
  · rintro ((h | h) | ⟨k, h | h⟩)
    · exact .inl (.inl h)
    · exact .inr (.inl h)
    · exact .inl (.inr ⟨k, h⟩)
    · exact .inr (.inr ⟨k, h⟩)
  · rintro ((h | ⟨k, h⟩) | (h | ⟨k, h⟩))
    · exact .inl (.inl h)
    · exact .inr ⟨k, .inl h⟩
    · exact .inl (.inr h)
    · exact .inr ⟨k, .inr h⟩

/-- The half of the invariant about encoders is kept if the operation is about decoders. -/
theorem enc_same {zip : Bytes → Bytes} {w w' : W} {os : List Op} {o : Op} (he : w'.encs = w.encs) (hs : w'.sinks = w.sinks)
    (h1 : ∀ s, sent s [o] = []) (h2 : ∀ s, o ≠ .close s) {s : Nat} (h : EncOk zip w os s) : EncOk zip w' (os ++ [o]) s := by
  unfold EncOk
  rw [sent_append, h1, List.append_nil, he, hs]
  rcases h with ⟨a, b⟩ | ⟨a, b⟩
  · exact .inl ⟨List.mem_append_left _ a, b⟩
  · refine .inr ⟨fun hm => ?_, b⟩
    rcases List.mem_append.1 hm with hm | hm
    · exact a hm
    · exact h2 s (List.mem_singleton.1 hm).symm

theorem dec_same {unzip : Bytes → Bytes} {w w' : W} {tr : List (Op × Bytes)} {os : List Op} {o : Op} {b : Bytes} {r : Nat} (he : w'.decs.see r = w.decs.see r)
    (h1 : got r [(o, b)] = []) (h2 : ¬ ended r [o]) {d : Bytes} (h : DecOk unzip w tr os r d) : DecOk unzip w' (tr ++ [(o, b)]) (os ++ [o]) r d := by
  unfold DecOk
  rw [got_append, h1, List.append_nil, he]
  rcases h with ⟨a, b⟩ | ⟨a, b⟩
  · exact .inl ⟨(ended_append ..).2 (.inl a), b⟩
  · exact .inr ⟨fun hm => ((ended_append ..).1 hm).elim a h2, b⟩

theorem EInv.skip {zip : Bytes → Bytes} {w w' : W} {os : List Op} {o : Op} (i : EInv zip w os) (he : w'.encs = w.encs) (hs : w'.sinks = w.sinks)
    (h0 : writers [o] = 0) (h1 : ∀ s, sent s [o] = []) (h2 : ∀ s, o ≠ .close s) : EInv zip w' (os ++ [o]) := by
  have hw : writers (os ++ [o]) = writers os := by rw [writers_append, h0]; rfl
  refine ⟨by rw [he]; exact i.eok, by rw [he, hs, hw]; exact i.elen, fun s hl => ?_, fun s hl => ?_⟩
  · rw [hw] at hl
    rw [sent_append, h1, List.append_nil]
    refine ⟨(i.enone s hl).1, fun hm => ?_⟩
    rcases List.mem_append.1 hm with hm | hm
    · exact (i.enone s hl).2 hm
    · exact h2 s (List.mem_singleton.1 hm).symm
  · rw [hw] at hl
    exact enc_same he hs h1 h2 (i.enc s hl)

theorem DInv.skip {unzip : Bytes → Bytes} {w w' : W} {tr : List (Op × Bytes)} {os : List Op} {o : Op} {b : Bytes} (i : DInv unzip w tr os)
    (he : w'.decs = w.decs) (h0 : inputs [o] = []) (h1 : ∀ r, got r [(o, b)] = []) (h2 : ∀ r, ¬ ended r [o]) :
    DInv unzip w' (tr ++ [(o, b)]) (os ++ [o]) := by
  have hw : inputs (os ++ [o]) = inputs os := by rw [inputs_append, h0, List.append_nil]
  refine ⟨by rw [he]; exact i.dok, by rw [he, hw]; exact i.dlen, fun r hl => ?_, fun r d hd => ?_⟩
  · rw [hw] at hl
    rw [got_append, h1, List.append_nil, ended_append]
    exact ⟨(i.dnone r hl).1, fun hm => hm.elim (i.dnone r hl).2 (h2 r)⟩
  · rw [hw] at hd
    exact dec_same (by rw [he]) (h1 r) (h2 r) (i.dec r d hd)

theorem see_lt {α : Type} {p : Pool α} {s : Nat} {x : Option α} (h : p.see s = some x) : s < p.abs.length := by
  rw [see_abs] at h; exact (List.getElem?_eq_some_iff.1 h).1

theorem compress_inv {zip : Bytes → Bytes} {w : W} {os : List Op} (i : EInv zip w os) {pick : Option Nat} {e : Pool Enc}
    (h : w.encs.take { to := some w.sinks.length } pick = some e) :
    EInv zip { w with encs := e, sinks := w.sinks ++ [[]] } (os ++ [.compress pick]) := by
  obtain ⟨hok, habs⟩ := take_ok i.eok h
  have hw : writers (os ++ [.compress pick]) = writers os + 1 := by rw [writers_append]; rfl
  have hs : ∀ s, sent s (os ++ [.compress pick]) = sent s os := fun s => by rw [sent_append]; simp [sent]
  have hc : ∀ s, (Op.close s ∈ os ++ [.compress pick]) ↔ Op.close s ∈ os := fun s => by simp
  refine ⟨hok, ⟨by simp [habs, hw, i.elen.1], by simp [hw, i.elen.2]⟩, fun s hl => ?_, fun s hl => ?_⟩
  · rw [hs, hc]; exact i.enone s (by omega)
  · rw [hw] at hl
    unfold EncOk
    rw [hs, hc, see_abs]
    simp only
    rw [habs]
    by_cases hl' : s < writers os
    · rw [List.getElem?_append_left (by rw [i.elen.1]; exact hl'), List.getElem?_append_left (by rw [i.elen.2]; exact hl'), ← see_abs]
      exact i.enc s hl'
    · have : s = writers os := by omega
      subst this
      obtain ⟨h1, h2⟩ := i.enone _ (Nat.le_refl _)
      refine .inr ⟨h2, ?_, ?_⟩
      · rw [List.getElem?_append_right (by rw [i.elen.1]; omega), i.elen.1, h1, i.elen.2]; simp
      · rw [List.getElem?_append_right (by rw [i.elen.2]; omega), i.elen.2]; simp

theorem write_inv {zip : Bytes → Bytes} {w : W} {os : List Op} (i : EInv zip w os) {s : Nat} {p : Bytes} {e : Enc} (h : w.encs.see s = some (some e)) :
    EInv zip { w with encs := w.encs.put s { e with acc := e.acc ++ p } } (os ++ [.write s p]) := by
  obtain ⟨hok, habs⟩ := put_ok i.eok { e with acc := e.acc ++ p } h
  have hw : writers (os ++ [.write s p]) = writers os := by rw [writers_append]; rfl
  have hlt := see_lt h
  have hs : ∀ t, sent t (os ++ [.write s p]) = sent t os ++ if s = t then p else [] := fun t => by rw [sent_append]; simp [sent]
  have hc : ∀ t, (Op.close t ∈ os ++ [.write s p]) ↔ Op.close t ∈ os := fun t => by simp
  refine ⟨hok, ⟨by simp [habs, hw, i.elen.1], by simp [hw, i.elen.2]⟩, fun t hl => ?_, fun t hl => ?_⟩
  · rw [hs, hc, if_neg (by rw [i.elen.1] at hlt; omega), List.append_nil]; exact i.enone t (by omega)
  · rw [hw] at hl
    have := i.enc t hl
    unfold EncOk at this ⊢
    rw [hs, hc]
    rw [see_abs] at this ⊢
    simp only
    rw [habs, List.getElem?_set]
    by_cases ht : s = t
    · subst ht
      rw [if_pos rfl, if_pos rfl, if_pos hlt]
      rw [see_abs] at h
      rcases this with ⟨h1, h2, h3⟩ | ⟨h1, h2, h3⟩
      · rw [h] at h2; cases h2
      · rw [h] at h2
        cases h2
        exact .inr ⟨h1, rfl, h3⟩
    · rw [if_neg ht, if_neg ht, List.append_nil]; exact this

theorem close_inv {zip : Bytes → Bytes} {w : W} {os : List Op} (i : EInv zip w os) {s : Nat} {e : Enc} (h : w.encs.see s = some (some e)) :
    EInv zip { w with encs := w.encs.giveBack s {}, sinks := emit w.sinks e.to (zip e.acc) } (os ++ [.close s]) := by
  obtain ⟨hok, habs⟩ := giveBack_ok i.eok {} h
  have hw : writers (os ++ [.close s]) = writers os := by rw [writers_append]; rfl
  have hlt := see_lt h
  rw [i.elen.1] at hlt
  have hs : ∀ t, sent t (os ++ [.close s]) = sent t os := fun t => by rw [sent_append]; simp [sent]
  have hc : ∀ t, (Op.close t ∈ os ++ [.close s]) ↔ (Op.close t ∈ os ∨ t = s) := fun t => by simp
  have hme : s < writers os → EncOk zip w os s := i.enc s
  rcases hme hlt with ⟨h1, h2, h3⟩ | ⟨h1, h2, h3⟩
  · rw [h] at h2; cases h2
  · rw [h] at h2
    cases h2
    have hemit : emit w.sinks (some s) (zip (sent s os)) = w.sinks.set s (zip (sent s os)) := by simp [emit, h3]
    simp only
    rw [hemit]
    refine ⟨hok, ⟨by simp [habs, hw, i.elen.1], by simp [hw, i.elen.2]⟩, fun t hl => ?_, fun t hl => ?_⟩
    · rw [hs, hc]
      rw [hw] at hl
      have := i.enone t hl
      exact ⟨this.1, fun hm => hm.elim this.2 (by omega)⟩
    · rw [hw] at hl
      have := i.enc t hl
      unfold EncOk at this ⊢
      rw [hs, hc]
      rw [see_abs] at this ⊢
      simp only
      rw [habs, List.getElem?_set, List.getElem?_set]
      by_cases ht : s = t
      · subst ht
        rw [if_pos rfl, if_pos rfl, if_pos (by rw [i.elen.1]; exact hlt), if_pos (by rw [i.elen.2]; exact hlt)]
        exact .inl ⟨.inr rfl, rfl, rfl⟩
      · rw [if_neg ht, if_neg ht]
        rcases this with ⟨k1, k2⟩ | ⟨k1, k2⟩
        · exact .inl ⟨.inl k1, k2⟩
        · exact .inr ⟨fun hm => hm.elim k1 (fun e => ht e.symm), k2⟩

theorem decompress_inv {unzip : Bytes → Bytes} {w : W} {tr : List (Op × Bytes)} {os : List Op} (i : DInv unzip w tr os) {d : Bytes} {pick : Option Nat} {e : Pool Bytes}
    (h : w.decs.take (unzip d) pick = some e) : DInv unzip { w with decs := e } (tr ++ [(.decompress d pick, [])]) (os ++ [.decompress d pick]) := by
  obtain ⟨hok, habs⟩ := take_ok i.dok h
  have hw : inputs (os ++ [.decompress d pick]) = inputs os ++ [d] := by rw [inputs_append]; rfl
  have hg : ∀ r, got r [((Op.decompress d pick), ([] : Bytes))] = [] := fun r => rfl
  have hend : ∀ r, ¬ ended r [.decompress d pick] := fun r => by simp [ended]
  refine ⟨hok, by simp [habs, hw, i.dlen], fun r hl => ?_, fun r d' hd => ?_⟩
  · rw [hw, List.length_append] at hl
    rw [got_append, hg, List.append_nil, ended_append]
    have := i.dnone r (by omega)
    exact ⟨this.1, fun hm => hm.elim this.2 (hend r)⟩
  · rw [hw] at hd
    by_cases hl : r < (inputs os).length
    · rw [List.getElem?_append_left hl] at hd
      refine dec_same ?_ (hg r) (hend r) (i.dec r d' hd)
      rw [see_abs, see_abs]
      simp only
      rw [habs, List.getElem?_append_left (by rw [i.dlen]; exact hl)]
    · have := (List.getElem?_eq_some_iff.1 hd).1
      simp at this
      have hr : r = (inputs os).length := by omega
      subst hr
      simp at hd
      subst hd
      obtain ⟨h1, h2⟩ := i.dnone _ (Nat.le_refl _)
      refine .inr ⟨fun hm => ((ended_append ..).1 hm).elim h2 (hend _), unzip d, ?_, ?_⟩
      · rw [see_abs]
        simp only
        rw [habs, ← i.dlen]; simp
      · rw [got_append, hg, h1]; rfl

/-- A read that does not end. -/
theorem read_inv {unzip : Bytes → Bytes} {w : W} {tr : List (Op × Bytes)} {os : List Op} (i : DInv unzip w tr os) {r k : Nat} {left : Bytes}
    (h : w.decs.see r = some (some left)) :
    DInv unzip { w with decs := w.decs.put r (left.drop k) } (tr ++ [(.read r k false, left.take k)]) (os ++ [.read r k false]) := by
  obtain ⟨hok, habs⟩ := put_ok i.dok (left.drop k) h
  have hlt := see_lt h
  rw [i.dlen] at hlt
  have hw : inputs (os ++ [.read r k false]) = inputs os := by rw [inputs_append]; simp [inputs]
  have hend : ∀ t, ¬ ended t [.read r k false] := fun t => by simp [ended]
  have hg : ∀ t, got t [(Op.read r k false, left.take k)] = if r = t then left.take k else [] := fun t => by simp [got]
  refine ⟨hok, by simp [habs, hw, i.dlen], fun t hl => ?_, fun t d hd => ?_⟩
  · rw [hw] at hl
    rw [got_append, hg, if_neg (by omega), List.append_nil, ended_append]
    have := i.dnone t hl
    exact ⟨this.1, fun hm => hm.elim this.2 (hend t)⟩
  · rw [hw] at hd
    by_cases ht : r = t
    · subst ht
      rcases i.dec r d hd with ⟨h1, h2, h3⟩ | ⟨h1, left', h2, h3⟩
      · rw [h] at h2; cases h2
      · rw [h] at h2
        cases h2
        refine .inr ⟨fun hm => ((ended_append ..).1 hm).elim h1 (hend _), left.drop k, ?_, ?_⟩
        · rw [see_abs]
          simp only
          rw [habs, List.getElem?_set, if_pos rfl, if_pos (by rw [i.dlen]; exact hlt)]
        · rw [got_append, hg, if_pos rfl, List.append_assoc, List.take_append_drop]; exact h3
    · refine dec_same ?_ (by rw [hg, if_neg ht]) (hend t) (i.dec t d hd)
      rw [see_abs, see_abs]
      simp only
      rw [habs, List.getElem?_set, if_neg ht]

/-- A read that ends, or a copy of all. -/
theorem end_inv {unzip : Bytes → Bytes} {w : W} {tr : List (Op × Bytes)} {os : List Op} (i : DInv unzip w tr os) {r : Nat} {left : Bytes} {o : Op}
    (h : w.decs.see r = some (some left)) (hw : inputs [o] = []) (hend : ∀ t, ended t [o] ↔ t = r)
    (hg : ∀ t, got t [(o, left)] = if r = t then left else []) :
    DInv unzip { w with decs := w.decs.giveBack r [] } (tr ++ [(o, left)]) (os ++ [o]) := by
  obtain ⟨hok, habs⟩ := giveBack_ok i.dok [] h
  have hlt := see_lt h
  rw [i.dlen] at hlt
  have hw : inputs (os ++ [o]) = inputs os := by rw [inputs_append, hw, List.append_nil]
  refine ⟨hok, by simp [habs, hw, i.dlen], fun t hl => ?_, fun t d hd => ?_⟩
  · rw [hw] at hl
    rw [got_append, hg, if_neg (by omega), List.append_nil, ended_append, hend]
    have := i.dnone t hl
    exact ⟨this.1, fun hm => hm.elim this.2 (by omega)⟩
  · rw [hw] at hd
    by_cases ht : r = t
    · subst ht
      rcases i.dec r d hd with ⟨h1, h2, h3⟩ | ⟨h1, left', h2, h3⟩
      · rw [h] at h2; cases h2
      · rw [h] at h2
        cases h2
        refine .inl ⟨(ended_append ..).2 (.inr ((hend r).2 rfl)), ?_, ?_⟩
        · rw [see_abs]
          simp only
          rw [habs, List.getElem?_set, if_pos rfl, if_pos (by rw [i.dlen]; exact hlt)]
        · rw [got_append, hg, if_pos rfl]; exact h3
    · refine dec_same ?_ (by rw [hg, if_neg ht]) (fun e => ht ((hend t).1 e).symm) (i.dec t d hd)
      rw [see_abs, see_abs]
      simp only
      rw [habs, List.getElem?_set, if_neg ht]

theorem step_inv {zip unzip : Bytes → Bytes} {w w' : W} {tr : List (Op × Bytes)} {os : List Op} {o : Op} {b : Bytes} (i : EInv zip w os) (j : DInv unzip w tr os)
    (h : step zip unzip w o = .ok w' b) : EInv zip w' (os ++ [o]) ∧ DInv unzip w' (tr ++ [(o, b)]) (os ++ [o]) := by
  cases o with
  | compress pick =>
    simp only [step] at h
    split at h
    · cases h
    · rename_i e he
      cases h
      exact ⟨compress_inv i he, j.skip rfl rfl (fun _ => rfl) (fun _ => by simp [ended])⟩
  | write s p =>
    simp only [step] at h
    split at h
    · cases h
    · cases h
    · rename_i e he
      cases h
      exact ⟨write_inv i he, j.skip rfl rfl (fun _ => rfl) (fun _ => by simp [ended])⟩
  | close s =>
    simp only [step] at h
    split at h
    · cases h
    · cases h
    · rename_i e he
      cases h
      exact ⟨close_inv i he, j.skip rfl rfl (fun _ => rfl) (fun _ => by simp [ended])⟩
  | decompress d pick =>
    simp only [step] at h
    split at h
    · cases h
    · rename_i e he
      cases h
      exact ⟨i.skip rfl rfl rfl (fun _ => rfl) (fun _ h => nomatch h), decompress_inv j he⟩
  | read r k fin =>
    simp only [step] at h
    split at h
    · cases h
    · cases h
    · rename_i left he
      cases fin with
      | true =>
        simp only [if_true] at h
        split at h
        · cases h
          refine ⟨i.skip rfl rfl rfl (fun _ => rfl) (fun _ h => nomatch h), end_inv j he rfl (fun t => ?_) (fun t => by simp [got])⟩
          simp only [ended, List.mem_singleton]
          constructor
          · rintro (h | ⟨k, h⟩) <;> cases h; rfl
          · rintro rfl; exact .inr ⟨k, rfl⟩
        · cases h
      | false =>
        simp at h
        obtain ⟨rfl, rfl⟩ := h
        exact ⟨i.skip rfl rfl rfl (fun _ => rfl) (fun _ h => nomatch h), read_inv j he⟩
  | writeTo r =>
    simp only [step] at h
    split at h
    · cases h
    · cases h
    · rename_i left he
      cases h
      refine ⟨i.skip rfl rfl rfl (fun _ => rfl) (fun _ h => nomatch h), end_inv j he rfl (fun t => ?_) (fun t => by simp [got])⟩
      simp only [ended, List.mem_singleton]
      constructor
      · rintro (h | ⟨k, h⟩) <;> cases h; rfl
      · rintro rfl; exact .inl rfl

theorem run_inv {zip unzip : Bytes → Bytes} (os' : List Op) : ∀ {w w' : W} {tr tr' : List (Op × Bytes)} {os : List Op}, EInv zip w os → DInv unzip w tr os →
    run (step zip unzip) w os' = some (w', tr') → EInv zip w' (os ++ os') ∧ DInv unzip w' (tr ++ tr') (os ++ os') := by
  induction os' with
  | nil => intro w w' tr tr' os i j h; cases h; simp only [List.append_nil]; exact ⟨i, j⟩
  | cons o os' ih =>
    intro w w' tr tr' os i j h
    unfold run at h
    split at h
    · rename_i w1 b hs
      obtain ⟨i1, j1⟩ := step_inv i j hs
      cases hr : run (step zip unzip) w1 os' with
      | none => rw [hr] at h; cases h
      | some r =>
        rw [hr] at h
        cases h
        have := ih i1 j1 hr
        simpa [List.append_assoc] using this
    · cases h

theorem start_inv (zip unzip : Bytes → Bytes) : EInv zip {} [] ∧ DInv unzip {} [] [] := by
  refine ⟨⟨⟨List.nodup_nil, ?_, ?_, ?_⟩, ⟨rfl, rfl⟩, ?_, ?_⟩, ⟨⟨List.nodup_nil, ?_, ?_, ?_⟩, rfl, ?_, ?_⟩⟩
  · intro e h; cases h
  · intro s t e h; simp at h
  · intro s e h; simp at h
  · intro s _; exact ⟨rfl, by simp⟩
  · intro s h; simp [writers] at h
  · intro e h; cases h
  · intro s t e h; simp at h
  · intro s e h; simp at h
  · intro s _; exact ⟨rfl, by simp [ended]⟩
  · intro s d h; simp [inputs] at h

end Verif.Cd
