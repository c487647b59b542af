import Verif.Spec.Service
import Verif.Props.Seq
import Mathlib.Data.List.Induction
/-!
# Invariants of the service
-/
namespace Verif
namespace Sq

/-- The sequence, with a bound on its next id. -/
structure SInv (w : World) (bw k : Nat) : Prop where
  inv : Inv w bw w.seq.leased
  next : w.seq.next ≤ k
  lease : w.seq.leased ≤ w.seq.next + bw

theorem number_step {w : World} {bw k : Nat} (hpos : 0 < bw) (h : SInv w bw k) (hk : k + bw < 2 ^ 64) :
    ∃ w', step bw w .sampleID = some (w', some w.seq.next) ∧ w'.seq.next = w.seq.next + 1 ∧ SInv w' bw (k + 1) := by
  obtain ⟨hi, hn, hl⟩ := h
  have hL : w.seq.leased < 2 ^ 64 := by omega
  have hnl := hi.nl
  simp only [step, Sequence.nextId]
  by_cases hc : w.seq.next ≥ w.seq.leased
  · obtain ⟨num, hnum, -, hnum2, hu⟩ := Tr.updateLease_of (db := w.db) (s := w.seq) (m := w.seq.leased) hL
      (by intro v hv; rw [hi.key, hi.store] at hv; cases hv; exact ⟨_, Nat.le_refl _, rfl⟩)
    have hnl2 : num = w.seq.leased := hnum2 _ hL (by rw [hi.key]; exact hi.store)
    have e : num = w.seq.next := by omega
    subst e
    simp only [hc, if_true, hu]
    refine ⟨_, rfl, rfl, ⟨⟨hi.key, hi.bw, by simp only [hi.key, Tr.KV.set_same], ?_, Nat.le_refl _⟩, ?_, ?_⟩⟩
    · show w.seq.next + 1 ≤ w.seq.next + w.seq.bandwidth; rw [hi.bw]; omega
    · show w.seq.next + 1 ≤ _; omega
    · show w.seq.next + w.seq.bandwidth ≤ w.seq.next + 1 + bw; rw [hi.bw]; omega
  · simp only [hc, if_false]
    refine ⟨_, rfl, rfl, ⟨⟨hi.key, hi.bw, hi.store, ?_, Nat.le_refl _⟩, ?_, ?_⟩⟩
    · show w.seq.next + 1 ≤ w.seq.leased; omega
    · show w.seq.next + 1 ≤ _; omega
    · show w.seq.leased ≤ w.seq.next + 1 + bw; omega

theorem release_step {w : World} {bw k : Nat} (h : SInv w bw k) (hk : k + bw < 2 ^ 64) :
    ∃ w', step bw w .release = some (w', none) ∧ w'.seq.next = w.seq.next ∧ SInv w' bw k := by
  obtain ⟨hi, hn, hl⟩ := h
  have hL : w.seq.leased < 2 ^ 64 := by omega
  simp only [step]
  rw [Tr.release_of (n := w.seq.leased) hL (by rw [hi.key]; exact hi.store)]
  simp only [ne_eq, not_true_eq_false, if_false]
  refine ⟨_, rfl, rfl, ⟨⟨hi.key, hi.bw, by simp only [hi.key, Tr.KV.set_same], Nat.le_refl _, Nat.le_refl _⟩, hn, ?_⟩⟩
  show w.seq.next ≤ w.seq.next + bw; omega

theorem reopen_step {w : World} {bw k : Nat} (h : SInv w bw k) (hk : k + bw < 2 ^ 64) :
    ∃ w', step bw w .reopen = some (w', none) ∧ w.seq.next ≤ w'.seq.next ∧ SInv w' bw (k + bw) := by
  obtain ⟨hi, hn, hl⟩ := h
  have hL : w.seq.leased < 2 ^ 64 := by omega
  have hnl := hi.nl
  simp only [step, getSequence]
  obtain ⟨num, hnum, -, hnum2, hu⟩ := Tr.updateLease_of (db := w.db)
    (s := { key := seqKey, next := 0, leased := 0, bandwidth := bw }) (m := w.seq.leased) hL
    (by intro v hv; simp only [hi.store] at hv; cases hv; exact ⟨_, Nat.le_refl _, rfl⟩)
  have hnl2 : num = w.seq.leased := hnum2 _ hL hi.store
  rw [hu]
  refine ⟨_, rfl, ?_, ⟨⟨rfl, rfl, by simp only [Tr.KV.set_same], ?_, Nat.le_refl _⟩, ?_, ?_⟩⟩
  · show w.seq.next ≤ num; omega
  · show num ≤ num + bw; omega
  · show num ≤ k + bw; omega
  · show num + bw ≤ num + bw; omega

end Sq

namespace Sv
open St (Flush Outcome)
variable {σ : Type} {D : Dict σ} {bw : Nat} {P : Data → Prop}

/-- The call holds the lock. -/
def busy : Pc → Prop
  | .locked _ | .numbered _ _ | .appended _ => True
  | _ => False

/-- The lists the flusher works on. -/
def Holds (s : Svc σ) (ls : Nat) : Prop := s.flusher = .swapped ls ∨ s.flusher = .unlocked ls ∨ s.flusher = .saved ls

/-- All samples handed to the store, in the hands of the flusher, or waiting. -/
def allOf (s : Svc σ) (es : List (Event σ)) : List Sample := flushedOf es ++ inHand s ++ buffered s

structure Inv (P : Data → Prop) (bw : Nat) (s : Svc σ) (es : List (Event σ)) (k : Nat) : Prop where
  seq : Sq.SInv s.seq bw k
  pool : s.pool = []
  data : s.data < s.count
  hand : ∀ ls, Holds s ls → ls < s.count ∧ ls ≠ s.data
  lock : ∀ t, busy (s.calls t) → s.lock = some (.call t)
  flock : (s.flusher = .locked ∨ ∃ ls, s.flusher = .swapped ls) → s.lock = some .flusher
  holder : ∀ t, s.lock = some (.call t) → busy (s.calls t)
  fholder : s.lock = some .flusher → s.flusher = .locked ∨ ∃ ls, s.flusher = .swapped ls
  ids : (allOf s es).Pairwise fun a b => a.id < b.id
  below : ∀ x ∈ allOf s es, x.id < s.seq.seq.next
  num : ∀ t d n, s.calls t = .numbered d n → (∀ x ∈ allOf s es, x.id < n) ∧ n < s.seq.seq.next
  acks : ackedOf (lifeOf es) ++ unanswered s = (allOf s (lifeOf es)).map (·.data)
  payload : (∀ x ∈ allOf s es, P x.data) ∧ ∀ t d, (s.calls t = .entered d ∨ s.calls t = .locked d ∨ ∃ n, s.calls t = .numbered d n) → P d

theorem flushedOf_append (a b : List (Event σ)) : flushedOf (a ++ b) = flushedOf a ++ flushedOf b := by simp [flushedOf]
theorem ackedOf_append (a b : List (Event σ)) : ackedOf (a ++ b) = ackedOf a ++ ackedOf b := by simp [ackedOf]
theorem lifeOf_snoc (a : List (Event σ)) (e : Event σ) : lifeOf (a ++ [e]) = match e with | .restarted _ => [] | e => lifeOf a ++ [e] := by
  unfold lifeOf
  rw [List.foldl_append, List.foldl_cons, List.foldl_nil]
  cases e <;> rfl

section steps
variable {s s' : Svc σ} {es e : List (Event σ)} {k : Nat}

theorem calls_set (t u : Nat) (p : Pc) : (setCall s t p).calls u = if u = t then p else s.calls u := rfl

/-- Another call changes nothing for a call that holds the lock. -/
theorem unanswered_set {t : Nat} {p : Pc} (h1 : ∀ d, s.calls t ≠ .appended d) (h2 : ∀ d, p ≠ .appended d) : unanswered (setCall s t p) = unanswered s := by
  unfold unanswered
  show (match s.lock with | some (.call u) => (match (if u = t then p else s.calls u) with | .appended d => [d] | _ => []) | _ => []) = _
  cases hl : s.lock with
  | none => rfl
  | some h =>
    cases h with
    | flusher => rfl
    | call u =>
      simp only
      by_cases e : u = t
      · subst e
        rw [if_pos rfl]
        cases p <;> first | exact absurd rfl (h2 _) | (cases hc : s.calls u <;> first | exact absurd hc (h1 _) | rfl)
      · rw [if_neg e]; cases s.calls u <;> rfl

theorem inv_call {t : Nat} {d : Data} (hi : Inv P bw s es k) (hc : s.calls t = .outside) (hd : P d) : Inv P bw (setCall s t (.entered d)) es k := by
  have hu := unanswered_set (s := s) (t := t) (p := .entered d) (by simp [hc]) (by simp)
  exact { hi with
    lock := fun u hb => by
      rw [calls_set] at hb; split at hb
      · exact hb.elim
      · exact hi.lock u hb
    holder := fun u h => by
      have := hi.holder u h
      rw [calls_set]; split
      · rename_i e; subst e; rw [hc] at this; exact this
      · exact this
    num := fun u d' n h => by
      rw [calls_set] at h; split at h
      · cases h
      · exact hi.num u d' n h
    acks := by rw [hu]; exact hi.acks
    payload := ⟨hi.payload.1, fun u d' h => by
      rw [calls_set] at h; split at h
      · simp at h; exact h ▸ hd
      · exact hi.payload.2 u d' h⟩ }

theorem inv_lock {t : Nat} {d : Data} (hi : Inv P bw s es k) (hc : s.calls t = .entered d) (hl : s.lock = none) :
    Inv P bw (setCall { s with lock := some (.call t) } t (.locked d)) es k := by
  have hno : ∀ u, ¬ busy (s.calls u) := fun u hb => by have := hi.lock u hb; rw [hl] at this; cases this
  exact { hi with
    lock := fun u hb => by
      rw [calls_set] at hb; split at hb
      · rename_i e; subst e; rfl
      · exact absurd hb (hno u)
    holder := fun u h => by
      cases h
      rw [calls_set, if_pos rfl]; trivial
    fholder := fun h => nomatch h
    flock := fun h => by have := hi.flock h; rw [hl] at this; cases this
    num := fun u d' n h => by
      rw [calls_set] at h; split at h
      · cases h
      · exact hi.num u d' n h
    acks := by
      have h1 : unanswered (setCall { s with lock := some (.call t) } t (.locked d)) = [] := by simp [unanswered, setCall]
      have h2 : unanswered s = [] := by simp [unanswered, hl]
      rw [h1]; have := hi.acks; rw [h2] at this; exact this
    payload := ⟨hi.payload.1, fun u d' h => by
      rw [calls_set] at h; split at h
      · simp at h; exact h ▸ hi.payload.2 t d (.inl hc)
      · exact hi.payload.2 u d' h⟩ }

theorem inv_number {t : Nat} {d : Data} {w : Sq.World} (hi : Inv P bw s es k) (hc : s.calls t = .locked d)
    (hn : w.seq.next = s.seq.seq.next + 1) (hw : Sq.SInv w bw (k + 1)) :
    Inv P bw (setCall { s with seq := w } t (.numbered d s.seq.seq.next)) es (k + 1) := by
  have hu := unanswered_set (s := { s with seq := w }) (t := t) (p := .numbered d s.seq.seq.next) (by simp [hc]) (by simp)
  exact { hi with
    seq := hw
    lock := fun u hb => by
      rw [calls_set] at hb; split at hb
      · rename_i e; subst e; exact hi.lock u (by rw [hc]; trivial)
      · exact hi.lock u hb
    holder := fun u h => by
      rw [calls_set]; split
      · trivial
      · exact hi.holder u h
    below := fun x hx => by have := hi.below x hx; show x.id < w.seq.next; omega
    num := fun u d' n h => by
      rw [calls_set] at h; split at h
      · cases h; exact ⟨hi.below, by show _ < w.seq.next; omega⟩
      · rename_i hne
        have h1 := hi.lock t (by rw [hc]; trivial)
        have h2 := hi.lock u (by show busy (s.calls u); rw [show s.calls u = _ from h]; trivial)
        rw [h1] at h2; cases h2; exact absurd rfl hne
    acks := by rw [hu]; exact hi.acks
    payload := ⟨hi.payload.1, fun u d' h => by
      rw [calls_set] at h; split at h
      · simp at h; exact h ▸ hi.payload.2 t d (.inr (.inl hc))
      · exact hi.payload.2 u d' h⟩ }

theorem buffered_append (x : Sample) (t : Nat) (p : Pc) : buffered (setCall (setList s s.data (s.lists s.data ++ [x])) t p) = buffered s ++ [x] := by
  show (if s.data = s.data then _ else _) = _
  rw [if_pos rfl]; rfl

theorem inHand_eq {s s' : Svc σ} (h1 : s'.flusher = s.flusher) (h2 : ∀ ls, Holds s ls → s'.lists ls = s.lists ls) : inHand s' = inHand s := by
  unfold inHand
  rw [h1]
  split
  · rename_i ls h; exact h2 ls (.inl h)
  · rename_i ls h; exact h2 ls (.inr (.inl h))
  · rfl

theorem inv_append {t : Nat} {d : Data} {n : Nat} (hi : Inv P bw s es k) (hc : s.calls t = .numbered d n) :
    Inv P bw (setCall (setList s s.data (s.lists s.data ++ [{ id := n, data := d }])) t (.appended d)) es k := by
  have hl := hi.lock t (by rw [hc]; trivial)
  have hb := buffered_append (s := s) { id := n, data := d } t (.appended d)
  have hh : inHand (setCall (setList s s.data (s.lists s.data ++ [{ id := n, data := d }])) t (.appended d)) = inHand s :=
    inHand_eq rfl fun ls h => if_neg (hi.hand ls h).2
  have ha : ∀ es, allOf (setCall (setList s s.data (s.lists s.data ++ [{ id := n, data := d }])) t (.appended d)) es = allOf s es ++ [{ id := n, data := d }] := by
    intro es; unfold allOf; rw [hb, hh, List.append_assoc, List.append_assoc, List.append_assoc]
  obtain ⟨hn1, hn2⟩ := hi.num t d n hc
  exact { hi with
    lock := fun u hb => by
      rw [calls_set] at hb; split at hb
      · rename_i e; subst e; exact hl
      · exact hi.lock u hb
    holder := fun u h => by
      rw [calls_set]; split
      · trivial
      · exact hi.holder u h
    ids := by
      rw [ha]
      refine List.pairwise_append.2 ⟨hi.ids, by simp, fun a h b hb => ?_⟩
      simp at hb; subst hb; exact hn1 a h
    below := fun x hx => by
      rw [ha] at hx
      rcases List.mem_append.1 hx with h | h
      · exact hi.below x h
      · simp at h; subst h; exact hn2
    num := fun u d' m h => by
      rw [calls_set] at h; split at h
      · cases h
      · rename_i hne
        have h2 := hi.lock u (by show busy (s.calls u); rw [show s.calls u = _ from h]; trivial)
        rw [hl] at h2; cases h2; exact absurd rfl hne
    acks := by
      rw [ha]
      have h1 : unanswered (setCall (setList s s.data (s.lists s.data ++ [{ id := n, data := d }])) t (.appended d)) = [d] := by
        simp [unanswered, setCall, setList, hl]
      have h2 : unanswered s = [] := by simp [unanswered, hl, hc]
      have := hi.acks
      rw [h2, List.append_nil] at this
      rw [h1, this]; simp
    payload := ⟨fun x hx => by
      rw [ha] at hx
      rcases List.mem_append.1 hx with h | h
      · exact hi.payload.1 x h
      · simp at h; subst h; exact hi.payload.2 t d (.inr (.inr ⟨n, hc⟩)), fun u d' h => by
      rw [calls_set] at h; split at h
      · simp at h
      · exact hi.payload.2 u d' h⟩ }

theorem inv_ret {t : Nat} {d : Data} (hi : Inv P bw s es k) (hc : s.calls t = .appended d) :
    Inv P bw (setCall { s with lock := none } t .outside) (es ++ [.returned d]) k := by
  have hl := hi.lock t (by rw [hc]; trivial)
  have hf : flushedOf (es ++ [.returned d]) = flushedOf es := by simp [flushedOf]
  have ha : allOf (setCall { s with lock := none } t .outside) (es ++ [.returned d]) = allOf s es := by
    unfold allOf; rw [hf]; rfl
  exact { hi with
    lock := fun u hb => by
      rw [calls_set] at hb; split at hb
      · exact hb.elim
      · rename_i hne
        have h2 := hi.lock u hb
        rw [hl] at h2; cases h2; exact absurd rfl hne
    flock := fun h => by have := hi.flock h; rw [hl] at this; cases this
    holder := fun u h => nomatch h
    fholder := fun h => nomatch h
    ids := by rw [ha]; exact hi.ids
    below := by rw [ha]; exact hi.below
    num := fun u d' m h => by
      rw [calls_set] at h; split at h
      · cases h
      · rename_i hne
        have h2 := hi.lock u (by show busy (s.calls u); rw [show s.calls u = _ from h]; trivial)
        rw [hl] at h2; cases h2; exact absurd rfl hne
    acks := by
      rw [lifeOf_snoc]
      simp only
      have h1 : unanswered (setCall { s with lock := none } t .outside) = [] := rfl
      have h2 : unanswered s = [d] := by simp [unanswered, hl, hc]
      have := hi.acks
      rw [h2] at this
      rw [h1, List.append_nil, ackedOf_append]
      show ackedOf (lifeOf es) ++ [d] = _
      rw [this]
      show _ = List.map _ (flushedOf (lifeOf es ++ [.returned d]) ++ _ ++ _)
      rw [flushedOf_append]
      simp [allOf, flushedOf]; rfl
    payload := ⟨by rw [ha]; exact hi.payload.1, fun u d' h => by
      rw [calls_set] at h; split at h
      · simp at h
      · exact hi.payload.2 u d' h⟩ }

/-- Steps of the flusher that move no samples. -/
theorem inv_flusher (hi : Inv P bw s es k) (f : Fpc) (l : Option Holder) (c : Bool)
    (hin : inHand { s with flusher := f, lock := l, cancelled := c } = inHand s)
    (hh : ∀ ls, Holds { s with flusher := f, lock := l, cancelled := c } ls → Holds s ls)
    (hlk : ∀ t, busy (s.calls t) → l = some (.call t)) (hfl : (f = .locked ∨ ∃ ls, f = .swapped ls) → l = some .flusher)
    (hho : ∀ t, l = some (.call t) → busy (s.calls t)) (hfh : l = some .flusher → f = .locked ∨ ∃ ls, f = .swapped ls)
    (hun : unanswered { s with flusher := f, lock := l, cancelled := c } = unanswered s) :
    Inv P bw { s with flusher := f, lock := l, cancelled := c } es k := by
  have ha : ∀ es, allOf { s with flusher := f, lock := l, cancelled := c } es = allOf s es := by intro es; unfold allOf; rw [hin]; rfl
  exact { hi with
    hand := fun ls h => hi.hand ls (hh ls h)
    lock := hlk
    flock := hfl
    holder := hho
    fholder := hfh
    ids := by rw [ha]; exact hi.ids
    below := by rw [ha]; exact hi.below
    num := by rw [ha]; exact hi.num
    acks := by rw [ha, hun]; exact hi.acks
    payload := ⟨by rw [ha]; exact hi.payload.1, hi.payload.2⟩ }

/-- Without the lock held by a call, nothing is unanswered. -/
theorem unanswered_nil {s : Svc σ} (h : ∀ t, s.lock ≠ some (.call t)) : unanswered s = [] := by
  unfold unanswered
  cases hl : s.lock with
  | none => rfl
  | some x => cases x with
    | flusher => rfl
    | call t => exact absurd hl (h t)

theorem get_new (hp : s.pool = []) (pick : Option Nat) : get s pick = (s.count, setList { s with count := s.count + 1 } s.count []) := by
  unfold get
  cases pick with
  | none => rfl
  | some n => simp [hp]

theorem inv_swap {pick : Option Nat} (hi : Inv P bw s es k) (hf : s.flusher = .locked) :
    Inv P bw { (get s pick).2 with data := (get s pick).1, flusher := .swapped s.data } es k ∧
    buffered { (get s pick).2 with data := (get s pick).1, flusher := .swapped s.data } = [] := by
  rw [get_new hi.pool]
  have hd := hi.data
  have h1 : inHand ({ setList { s with count := s.count + 1 } s.count [] with data := s.count, flusher := .swapped s.data } : Svc σ) = buffered s := by
    show (if s.data = s.count then [] else s.lists s.data) = _
    rw [if_neg (by omega)]; rfl
  have h2 : buffered ({ setList { s with count := s.count + 1 } s.count [] with data := s.count, flusher := .swapped s.data } : Svc σ) = [] := by
    show (if s.count = s.count then [] else _) = _
    rw [if_pos rfl]
  have h3 : inHand s = [] := by unfold inHand; rw [hf]
  have hl : s.lock = some .flusher := hi.flock (.inl hf)
  have ha : ∀ es, allOf ({ setList { s with count := s.count + 1 } s.count [] with data := s.count, flusher := .swapped s.data } : Svc σ) es = allOf s es := by
    intro es; unfold allOf; rw [h1, h2, h3]; simp
  refine ⟨{ hi with
    data := by show s.count < s.count + 1; omega
    hand := fun ls h => by
      rcases h with h | h | h <;> cases h
      show s.data < s.count + 1 ∧ s.data ≠ s.count
      omega
    flock := fun _ => hl
    fholder := fun _ => .inr ⟨_, rfl⟩
    ids := by rw [ha]; exact hi.ids
    below := by rw [ha]; exact hi.below
    num := by rw [ha]; exact hi.num
    acks := by rw [ha]; exact hi.acks
    payload := ⟨by rw [ha]; exact hi.payload.1, hi.payload.2⟩ }, h2⟩

theorem inv_save {ls : Nat} {fl : Flush} {o : Outcome} {st : St.Store σ} {b : Bool} (hi : Inv P bw s es k) (hf : s.flusher = .unlocked ls) (hs : fl.samples = s.lists ls) :
    Inv P bw { s with store := st, flusher := .saved ls, dead := b } (es ++ [.flushed fl o]) k := by
  have h1 : inHand s = s.lists ls := by unfold inHand; rw [hf]
  have ha : ∀ es, allOf { s with store := st, flusher := .saved ls, dead := b } (es ++ [.flushed fl o]) = allOf s es := by
    intro es; unfold allOf
    rw [flushedOf_append, h1]
    show flushedOf es ++ (fl.samples ++ []) ++ [] ++ _ = _
    rw [hs]; simp; rfl
  exact { hi with
    hand := fun l h => by
      rcases h with h | h | h <;> cases h
      exact hi.hand ls (.inr (.inl hf))
    flock := fun h => by rcases h with h | ⟨_, h⟩ <;> cases h
    fholder := fun h => by rcases hi.fholder h with h | ⟨_, h⟩ <;> (rw [hf] at h; cases h)
    ids := by rw [ha]; exact hi.ids
    below := by rw [ha]; exact hi.below
    num := by rw [ha]; exact hi.num
    acks := by
      rw [lifeOf_snoc]
      simp only
      rw [ha, ackedOf_append]
      show ackedOf (lifeOf es) ++ [] ++ unanswered s = _
      rw [List.append_nil]; exact hi.acks
    payload := ⟨by rw [ha]; exact hi.payload.1, hi.payload.2⟩ }

theorem inv_release {ls : Nat} (hi : Inv P bw s es k) (hf : s.flusher = .saved ls) : Inv P bw { release s ls with flusher := .waiting } es k := by
  have h1 : inHand s = [] := by unfold inHand; rw [hf]
  have hne := (hi.hand ls (.inr (.inr hf))).2
  have hb : buffered ({ release s ls with flusher := .waiting } : Svc σ) = buffered s := by
    show (if s.data = ls then [] else s.lists s.data) = _
    rw [if_neg (Ne.symm hne)]; rfl
  have ha : ∀ es, allOf ({ release s ls with flusher := .waiting } : Svc σ) es = allOf s es := by
    intro es; unfold allOf; rw [hb, h1]; rfl
  exact { hi with
    hand := fun l h => by rcases h with h | h | h <;> cases h
    flock := fun h => by rcases h with h | ⟨_, h⟩ <;> cases h
    fholder := fun h => by rcases hi.fholder h with h | ⟨_, h⟩ <;> (rw [hf] at h; cases h)
    ids := by rw [ha]; exact hi.ids
    below := by rw [ha]; exact hi.below
    num := by rw [ha]; exact hi.num
    acks := by rw [ha]; exact hi.acks
    payload := ⟨by rw [ha]; exact hi.payload.1, hi.payload.2⟩ }

theorem pairwise_left {α : Type} {R : α → α → Prop} {a b c : List α} (h : (a ++ b ++ c).Pairwise R) : a.Pairwise R :=
  (List.pairwise_append.1 (List.pairwise_append.1 h).1).1

theorem inv_restart {st : σ} {w : Sq.World} {store : St.Store σ} {k' : Nat} (hi : Inv P bw s es k) (hw : Sq.SInv w bw k') (hn : s.seq.seq.next ≤ w.seq.next) :
    Inv P bw { seq := w, store := store } (es ++ [.restarted st]) k' := by
  have hf : flushedOf (es ++ [.restarted st]) = flushedOf es := by simp [flushedOf]
  have ha : allOf { seq := w, store := store } (es ++ [.restarted st]) = flushedOf es := by
    unfold allOf; rw [hf]; show flushedOf es ++ [] ++ [] = _; simp
  have hsub : ∀ x ∈ flushedOf es, x ∈ allOf s es := fun x hx => by unfold allOf; simp [hx]
  exact {
    seq := hw
    pool := rfl
    data := by show 0 < 1; omega
    hand := fun l h => by rcases h with h | h | h <;> cases h
    lock := fun t h => h.elim
    flock := fun h => by rcases h with h | ⟨_, h⟩ <;> cases h
    holder := fun u h => nomatch h
    fholder := fun h => nomatch h
    ids := by rw [ha]; exact pairwise_left hi.ids
    below := by
      rw [ha]; intro x hx
      have := hi.below x (hsub x hx)
      show x.id < w.seq.next
      omega
    num := fun t d n h => by cases h
    acks := by rw [lifeOf_snoc]; rfl
    payload := ⟨by rw [ha]; exact fun x hx => hi.payload.1 x (hsub x hx), fun t d h => by rcases h with h | h | ⟨_, h⟩ <;> cases h⟩ }

/-- How many ids a step may use up. -/
def cost (bw : Nat) : Label σ → Nat
  | .number _ => 1
  | .restart _ _ => bw
  | _ => 0

theorem step_inv {l : Label σ} (hpos : 0 < bw) (hi : Inv P bw s es k) (hk : k + bw < 2 ^ 64) (hP : ∀ t d, l = .call t d → P d)
    (h : step D bw s l = some (s', e)) : Inv P bw s' (es ++ e) (k + cost bw l) := by
  by_cases hr : ∃ st c, l = .restart st c
  · obtain ⟨st, c, rfl⟩ := hr
    simp only [step] at h
    obtain ⟨w1, h1, h2, h3⟩ : ∃ w, atExit bw s.seq c = w ∧ s.seq.seq.next ≤ w.seq.next ∧ Sq.SInv w bw k := by
      unfold atExit
      cases c with
      | false => exact ⟨_, rfl, Nat.le_refl _, hi.seq⟩
      | true =>
        obtain ⟨w', a, b, c⟩ := Sq.release_step hi.seq hk
        rw [a]
        exact ⟨w', rfl, by omega, c⟩
    obtain ⟨w2, a, b, c'⟩ := Sq.reopen_step h3 hk
    rw [h1] at h
    unfold start at h
    rw [a] at h
    cases h
    exact inv_restart hi c' (Nat.le_trans h2 b)
  · have h' : live D bw s l = some (s', e) := by
      cases l <;> first | exact absurd ⟨_, _, rfl⟩ hr | (simp only [step] at h; split at h <;> first | cases h; done | exact h)
    clear h
    cases l with
    | call t d =>
      simp only [live] at h'
      split at h' <;> cases h'
      rename_i hc
      rw [List.append_nil]; exact inv_call hi hc (hP t d rfl)
    | lock t =>
      simp only [live] at h'
      split at h' <;> cases h'
      rename_i d hc hl
      rw [List.append_nil]; exact inv_lock hi hc hl
    | number t =>
      simp only [live] at h'
      split at h'
      · rename_i d hc
        obtain ⟨w, a, b, c⟩ := Sq.number_step hpos hi.seq hk
        rw [a] at h'
        cases h'
        rw [List.append_nil]; exact inv_number hi hc b c
      · cases h'
    | append t =>
      simp only [live] at h'
      split at h' <;> cases h'
      rename_i d n hc
      rw [List.append_nil]; exact inv_append hi hc
    | ret t =>
      simp only [live] at h'
      split at h' <;> cases h'
      rename_i d hc
      exact inv_ret hi hc
    | tick =>
      simp only [live] at h'
      split at h' <;> cases h'
      rename_i hf
      rw [List.append_nil]
      refine inv_flusher hi .ticked s.lock s.cancelled ?_ ?_ hi.lock ?_ hi.holder (fun h => by rcases hi.fholder h with h | ⟨_, h⟩ <;> (rw [hf] at h; cases h)) rfl
      · simp only [inHand, hf]
      · intro ls hls; rcases hls with h | h | h <;> cases h
      · intro h; rcases h with h | ⟨_, h⟩ <;> cases h
    | flock =>
      simp only [live] at h'
      split at h' <;> cases h'
      rename_i hf
      rw [List.append_nil]
      refine inv_flusher hi .locked (some .flusher) s.cancelled ?_ ?_ ?_ (fun _ => rfl) (fun _ h => nomatch h) (fun _ => .inl rfl) ?_
      · simp only [inHand, hf.1]
      · intro ls hls; rcases hls with h | h | h <;> cases h
      · intro t hb; have := hi.lock t hb; rw [hf.2] at this; cases this
      · rw [unanswered_nil (s := s) (by simp [hf.2])]; rfl
    | swap pick =>
      simp only [live] at h'
      split at h' <;> cases h'
      rename_i hf
      rw [List.append_nil]; exact (inv_swap hi hf).1
    | funlock =>
      simp only [live] at h'
      split at h' <;> cases h'
      rename_i ls hf
      rw [List.append_nil]
      have hl := hi.flock (.inr ⟨ls, hf⟩)
      refine inv_flusher hi (.unlocked ls) none s.cancelled ?_ ?_ ?_ ?_ (fun _ h => nomatch h) (fun h => nomatch h) ?_
      · simp only [inHand, hf]
      · intro ls' hls; rcases hls with h | h | h <;> cases h; exact .inl hf
      · intro t hb; have := hi.lock t hb; rw [hl] at this; cases this
      · intro h; rcases h with h | ⟨_, h⟩ <;> cases h
      · rw [unanswered_nil (s := s) (by simp [hl])]; rfl
    | save fl =>
      simp only [live] at h'
      split at h' <;> cases h'
      rename_i ls hf
      exact inv_save hi hf rfl
    | release =>
      simp only [live] at h'
      split at h' <;> cases h'
      rename_i ls hf
      rw [List.append_nil]; exact inv_release hi hf
    | cancel =>
      simp only [live] at h'
      cases h'
      rw [List.append_nil]
      exact inv_flusher hi s.flusher s.lock true rfl (fun _ h => h) hi.lock hi.flock hi.holder hi.fholder rfl
    | stop =>
      simp only [live] at h'
      split at h' <;> cases h'
      rename_i hf
      rw [List.append_nil]
      refine inv_flusher hi .stopped s.lock s.cancelled ?_ ?_ hi.lock ?_ hi.holder (fun h => by rcases hi.fholder h with h | ⟨_, h⟩ <;> (rw [hf.1] at h; cases h)) rfl
      · simp only [inHand, hf.1]
      · intro ls hls; rcases hls with h | h | h <;> cases h
      · intro h; rcases h with h | ⟨_, h⟩ <;> cases h
    | restart st c => exact absurd ⟨_, _, rfl⟩ hr

theorem run_inv (hpos : 0 < bw) : ∀ (ls : List (Label σ)) {s : Svc σ} {es : List (Event σ)} {k : Nat} {s' : Svc σ} {e : List (Event σ)},
    Inv P bw s es k → k + (ls.map (cost bw)).sum + bw < 2 ^ 64 → (∀ t d, .call t d ∈ ls → P d) → run D bw s ls = some (s', e) →
    Inv P bw s' (es ++ e) (k + (ls.map (cost bw)).sum) := by
  intro ls
  induction ls with
  | nil => intro s es k s' e hi _ _ h; cases h; simpa using hi
  | cons l ls ih =>
    intro s es k s' e hi hk hP h
    simp only [List.map_cons, List.sum_cons] at hk ⊢
    simp only [run] at h
    split at h
    · cases h
    · rename_i s1 e1 h1
      split at h
      · cases h
      · rename_i s2 e2 h2
        cases h
        have := ih (step_inv hpos hi (by omega) (fun t d hl => hP t d (hl ▸ List.mem_cons_self)) h1) (by omega)
          (fun t d hl => hP t d (List.mem_cons_of_mem _ hl)) h2
        rw [← List.append_assoc, ← Nat.add_assoc]; exact this

theorem init_inv {db : KV} {st : σ} (hdb : db Sq.seqKey = none) : ∃ s, init bw st db = some s ∧ Inv P bw s [] 0 ∧ s.store = St.Store.start st (fun _ => none) [] := by
  unfold init getSequence Sequence.updateLease
  rw [hdb]
  dsimp only
  refine ⟨_, rfl, ?_, rfl⟩
  exact {
    seq := ⟨{ key := rfl, bw := rfl, store := by simp only [Tr.KV.set_same], nl := by simp, bound := Nat.le_refl _ }, Nat.le_refl _, by simp⟩
    pool := rfl
    data := by show 0 < 1; omega
    hand := fun l h => by rcases h with h | h | h <;> cases h
    lock := fun t h => h.elim
    flock := fun h => by rcases h with h | ⟨_, h⟩ <;> cases h
    holder := fun u h => nomatch h
    fholder := fun h => nomatch h
    ids := .nil
    below := fun x hx => nomatch hx
    num := fun t d n h => by cases h
    acks := rfl
    payload := ⟨fun x hx => (nomatch hx), fun t d h => by rcases h with h | h | ⟨_, h⟩ <;> cases h⟩ }

end steps
end Sv
end Verif
