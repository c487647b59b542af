import Verif.Lemmas.Lookup
import Verif.Props.Translate
/-!
# Simultaneous lookups

C76: any number of lookups at the same time, each finds the label it asked for.
-/
namespace Verif
open Tr

namespace Tr
variable {c : Config} {extra : Nat}

theorem get_step {v v' : LWorld} {t : Nat} {o : Option Out} (h : lstep c extra v (.get t) = some (v', o)) :
    ∃ l, v.running.find? (fun l => l.tid = t) = some l ∧ v' = { v with running := v.running.filter (fun l => l.tid ≠ t) } ∧ answerOf v.w.db l.key (l.slice.read v.heap) = o ∧ o.isSome := by
  simp only [lstep] at h
  split at h
  · cases h
  rename_i l hl
  refine ⟨l, hl, ?_⟩
  simp only [answerOf]
  split at h
  · rename_i hd; cases h; simp [hd]
  · rename_i x hd
    split at h
    · cases h
    · rename_i n hn; cases h; simp [hd, hn]

theorem find_step (w : World) (key : Bytes) : step c w (.find key) = (answerOf w.db key (w.tr.keys ++ key)).map fun o => (w, o) := by
  simp only [step, answerOf]
  cases w.db (w.tr.keys ++ key) with
  | none => rfl
  | some x => simp only; cases btou64 x <;> rfl

theorem atomic_run : ∀ (ops : List LOp) (v v' : LWorld) (outs : List Out), LInv c extra v → (∀ l ∈ v.running, room c extra < l.key.length) → (∀ k ∈ lookedUp ops, room c extra < k.length) →
    lrun c extra v ops = some (v', outs) → run c v.w (atomic (v.running.map fun l => (l.tid, l.key)) ops) = some (v'.w, outs) := by
  intro ops
  induction ops with
  | nil => intro v v' outs _ _ _ h; cases h; rfl
  | cons op ops ih =>
    intro v v' outs i hrun hl h
    simp only [lrun] at h
    split at h
    · cases h
    rename_i v1 o hs
    split at h
    · cases h
    rename_i v2 os hr
    cases h
    have i1 := linv_step i hs
    cases op with
    | append t key =>
      have hk : room c extra < key.length := hl key (by simp [lookedUp])
      have h2 := ih v1 v' os i1
      simp only [lstep] at hs
      split at hs
      · cases hs
      cases hs
      have h3 := h2 ?_ (fun k hk => hl k (by simp [lookedUp, hk])) hr
      · simpa [atomic] using h3
      · intro l hm
        rcases List.mem_append.mp hm with hm | hm
        · exact hrun l hm
        · simp only [List.mem_singleton] at hm; subst hm; exact hk
    | get t =>
      obtain ⟨l, h1, rfl, h3, h4⟩ := get_step hs
      obtain ⟨x, rfl⟩ := Option.isSome_iff_exists.mp h4
      have hm : l ∈ v.running := List.mem_of_find?_eq_some h1
      have h5 := ih _ v' os i1 (fun l hl => hrun l (List.mem_filter.mp hl).1) (fun k hk => hl k (by simp [lookedUp, hk])) hr
      have e1 : (v.running.map fun l => (l.tid, l.key)).find? (fun l => decide (l.1 = t)) = some (l.tid, l.key) := by
        rw [List.find?_map, show ((fun l : Nat × Bytes => decide (l.1 = t)) ∘ fun l : Lookup => (l.tid, l.key)) = fun l => decide (l.tid = t) from rfl, h1]; rfl
      have e2 : (v.running.map fun l => (l.tid, l.key)).filter (fun l => decide (l.1 ≠ t)) = (v.running.filter fun l => decide (l.tid ≠ t)).map fun l => (l.tid, l.key) := by
        rw [List.filter_map]; rfl
      rw [(i.long l hm (hrun l hm)).2.2, ← i.keys] at h3
      simp only [atomic, e1, e2, run, find_step, h3, Option.map_some, h5]
      rfl
    | other op =>
      cases op with
      | find key => cases hs
      | reopen =>
        simp only [lstep] at hs
        split at hs
        · cases hs
        rename_i w o' hw
        cases hs
        have h5 := ih _ v' os i1 (by simp) (fun k hk => hl k (by simp [lookedUp, hk])) hr
        simp only [List.map_nil] at h5
        simp only [atomic, run, hw, h5]
        rfl
      | begin t key =>
        simp only [lstep] at hs
        split at hs
        · cases hs
        rename_i w o' hw
        cases hs
        have h5 := ih _ v' os i1 hrun (fun k hk => hl k (by simp [lookedUp, hk])) hr
        simp only [atomic, run, hw, h5]
        rfl
      | commit t sp =>
        simp only [lstep] at hs
        split at hs
        · cases hs
        rename_i w o' hw
        cases hs
        have h5 := ih _ v' os i1 hrun (fun k hk => hl k (by simp [lookedUp, hk])) hr
        simp only [atomic, run, hw, h5]
        rfl
      | lookup id =>
        simp only [lstep] at hs
        split at hs
        · cases hs
        rename_i w o' hw
        cases hs
        have h5 := ih _ v' os i1 hrun (fun k hk => hl k (by simp [lookedUp, hk])) hr
        simp only [atomic, run, hw, h5]
        rfl
      | bulk ids =>
        simp only [lstep] at hs
        split at hs
        · cases hs
        rename_i w o' hw
        cases hs
        have h5 := ih _ v' os i1 hrun (fun k hk => hl k (by simp [lookedUp, hk])) hr
        simp only [atomic, run, hw, h5]
        rfl
      | close =>
        simp only [lstep] at hs
        split at hs
        · cases hs
        rename_i w o' hw
        cases hs
        have h5 := ih _ v' os i1 hrun (fun k hk => hl k (by simp [lookedUp, hk])) hr
        simp only [atomic, run, hw, h5]
        rfl

theorem lhistory_run {ops : List LOp} {v : LWorld} {outs : List Out} (h : lhistory c extra ops = some (v, outs)) : ∃ w, init c KV.empty = some w ∧
    lrun c extra { w := w, heap := (slices c extra).1, keys := (slices c extra).2 } ops = some (v, outs) := by
  simp only [lhistory] at h
  split at h
  · cases h
  rename_i w hi
  exact ⟨w, hi, h⟩

/-- Others' appends, seen by a lookup that has built its key. -/
theorem mid_run {t : Nat} {k : Bytes} : ∀ (mid : List LOp) (v v' : LWorld) (outs : List Out) (sl : Slice) (x : Bytes), LInv c extra v → (∀ op ∈ mid, op ≠ .get t ∧ op ≠ .other .reopen) →
    v.running.find? (fun l => l.tid = t) = some ⟨t, k, sl⟩ → sl.read v.heap = (names c.pfx c.spare).nk ++ x → x.length = k.length → (room c extra < k.length → x = k) → lrun c extra v mid = some (v', outs) →
    v'.running.find? (fun l => l.tid = t) = some ⟨t, k, sl⟩ ∧
      sl.read v'.heap = (names c.pfx c.spare).nk ++ if k.length ≤ room c extra then covered x ((lookedUp mid).filter fun y => y.length ≤ room c extra) else k := by
  intro mid
  induction mid with
  | nil =>
    intro v v' outs sl x i _ h1 h2 h3 h4 h
    cases h
    refine ⟨h1, h2.trans ?_⟩
    by_cases hk : k.length ≤ room c extra
    · rw [if_pos hk]; rfl
    · rw [if_neg hk, h4 (by omega)]
  | cons op mid ih =>
    intro v v' outs sl x i hm h1 h2 h3 h4 h
    simp only [lrun] at h
    split at h
    · cases h
    rename_i v1 o hs
    split at h
    · cases h
    rename_i v2 os hr
    cases h
    have i1 := linv_step i hs
    have hmem : (⟨t, k, sl⟩ : Lookup) ∈ v.running := List.mem_of_find?_eq_some h1
    have hm' : ∀ op ∈ mid, op ≠ .get t ∧ op ≠ .other .reopen := fun op hop => hm op (by simp [hop])
    cases op with
    | append t' key =>
      simp only [lstep] at hs
      split at hs
      · cases hs
      cases hs
      have hfind : (v.running ++ [(⟨t', key, (goAppend v.heap v.keys key).2⟩ : Lookup)]).find? (fun l => decide (l.tid = t)) = some ⟨t, k, sl⟩ := by rw [List.find?_append, h1]; rfl
      by_cases hk : k.length ≤ room c extra
      · have hsl := i.short _ hmem hk
        simp only at hsl
        have hrc := read_covered i.shape key h3 (by rw [← hsl]; exact h2)
        rw [← hsl] at hrc
        by_cases hkey : key.length ≤ room c extra
        · rw [if_pos hkey] at hrc
          have h5 := ih _ _ _ sl (key.take x.length ++ x.drop key.length) i1 hm' hfind hrc (by simp; omega) (by omega) hr
          refine ⟨h5.1, h5.2.trans ?_⟩
          rw [if_pos hk, if_pos hk]
          simp [lookedUp, hkey, covered]
        · rw [if_neg hkey] at hrc
          have h5 := ih _ _ _ sl x i1 hm' hfind hrc h3 (by omega) hr
          refine ⟨h5.1, h5.2.trans ?_⟩
          rw [if_pos hk, if_pos hk]
          simp [lookedUp, hkey]
      · obtain ⟨g1, g2, g3⟩ := i.long _ hmem (by simp only; omega)
        have hro := (read_other i.shape key g1 g2).1
        have h5 := ih _ _ _ sl k i1 hm' hfind (hro.trans g3) rfl (fun _ => rfl) hr
        refine ⟨h5.1, h5.2.trans ?_⟩
        rw [if_neg hk, if_neg hk]
    | get t' =>
      obtain ⟨l, e1, rfl, e3, e4⟩ := get_step hs
      have ht : t' ≠ t := fun e => (hm (.get t') (by simp)).1 (by rw [e])
      refine ih _ _ _ sl x i1 hm' ?_ h2 h3 h4 hr
      simp only
      rw [List.find?_filter]
      rw [show (fun l : Lookup => decide (decide (l.tid ≠ t') = true ∧ decide (l.tid = t) = true)) = fun l => decide (l.tid = t) from funext fun l => by
        by_cases hl : l.tid = t
        · simp [hl, Ne.symm ht]
        · simp [hl]]
      exact h1
    | other op =>
      cases op with
      | find key => cases hs
      | reopen => exact absurd rfl (hm (.other .reopen) (by simp)).2
      | begin t key =>
        simp only [lstep] at hs
        split at hs <;> cases hs
        exact ih _ _ _ sl x i1 hm' h1 h2 h3 h4 hr
      | commit t sp =>
        simp only [lstep] at hs
        split at hs <;> cases hs
        exact ih _ _ _ sl x i1 hm' h1 h2 h3 h4 hr
      | lookup id =>
        simp only [lstep] at hs
        split at hs <;> cases hs
        exact ih _ _ _ sl x i1 hm' h1 h2 h3 h4 hr
      | bulk ids =>
        simp only [lstep] at hs
        split at hs <;> cases hs
        exact ih _ _ _ sl x i1 hm' h1 h2 h3 h4 hr
      | close =>
        simp only [lstep] at hs
        split at hs <;> cases hs
        exact ih _ _ _ sl x i1 hm' h1 h2 h3 h4 hr

/-- No label has less than four bytes. -/
theorem label_long {extra : Nat} (l : Label) : room deployed extra < l.encode.length := by
  have h1 : ∀ i : Int, (decInt i).length ≠ 0 := by
    intro i
    cases i with
    | ofNat n => show (dec n).length ≠ 0; simpa using dec_ne_nil n
    | negSucc n => simp [decInt]
  have h2 := h1 l.resource
  have h3 := h1 l.pfx
  show 3 < _
  simp only [Label.encode]
  split <;> simp <;> omega

theorem running_long : ∀ (ops : List LOp) (v v' : LWorld) (outs : List Out), (∀ l ∈ v.running, room c extra < l.key.length) → (∀ k ∈ lookedUp ops, room c extra < k.length) →
    lrun c extra v ops = some (v', outs) → ∀ l ∈ v'.running, room c extra < l.key.length := by
  intro ops
  induction ops with
  | nil => intro v v' outs h1 _ h; cases h; exact h1
  | cons op ops ih =>
    intro v v' outs h1 h2 h
    simp only [lrun] at h
    split at h
    · cases h
    rename_i v1 o hs
    split at h
    · cases h
    rename_i os hr
    cases h
    refine ih _ _ _ ?_ (fun k hk => h2 k (by cases op <;> simp [lookedUp, hk])) hr
    have hothers : ∀ (w : World), ∀ l ∈ ({ v with w := w } : LWorld).running, room c extra < l.key.length := fun _ => h1
    cases op with
    | append t key =>
      simp only [lstep] at hs
      split at hs
      · cases hs
      cases hs
      intro l hm
      rcases List.mem_append.mp hm with hm | hm
      · exact h1 l hm
      · simp only [List.mem_singleton] at hm; subst hm; exact h2 key (by simp [lookedUp])
    | get t =>
      obtain ⟨l, -, rfl, -, -⟩ := get_step hs
      exact fun l hl => h1 l (List.mem_filter.mp hl).1
    | other op =>
      cases op <;> simp only [lstep] at hs <;> first | (cases hs; done) | (cases hs; exact h1) | (split at hs <;> cases hs <;> first | exact h1 | (intro l hl; cases hl))

theorem run_last_inv {w w1 w2 : World} {ops : List Op} {op : Op} {outs : List Out} {o : Out} (h : run c w ops = some (w1, outs)) (h' : run c w (ops ++ [op]) = some (w2, outs ++ [o])) :
    step c w1 op = some (w2, o) := by
  rw [run_append, h] at h'
  simp only [run] at h'
  cases hs : step c w1 op with
  | none => rw [hs] at h'; cases h'
  | some p => rw [hs] at h'; simp at h'; rw [← h'.1, ← h'.2]

end Tr

/-- **C76.** With keys that are longer than the room behind `keys`, lookups of any number of goroutines, interleaved in any way with each other and with all other operations, answer exactly as if each
of them were a single step, taken when it asks the database. What was proved of such histories (C05 to C08) holds of these. -/
theorem C76_as_one_step (c : Config) (extra : Nat) (ops : List LOp) (hl : ∀ k ∈ lookedUp ops, room c extra < k.length) {v : LWorld} {outs : List Out} (h : lhistory c extra ops = some (v, outs)) :
    history c (atomic [] ops) = some (v.w, outs) := by
  obtain ⟨w, hi, hr⟩ := lhistory_run h
  simp only [history, hi]
  exact atomic_run ops _ v outs (linv_start hi) (by simp) hl hr

/-- **C76.** In the program there is room for three bytes, and no label has less than four: all lookups of scans are as if each were a single step. -/
theorem C76_labels (ops : List LOp) (hl : ∀ k ∈ lookedUp ops, ∃ l : Label, k = l.encode) (extra : Nat) {v : LWorld} {outs : List Out} (h : lhistory deployed extra ops = some (v, outs)) :
    history deployed (atomic [] ops) = some (v.w, outs) := by
  refine C76_as_one_step deployed extra ops (fun k hk => ?_) h
  obtain ⟨l, rfl⟩ := hl k hk
  exact label_long l

/-- **C76.** So a lookup that is under way in the program, among any others, finds its label with the id it was given, if it was given one, and otherwise nothing. -/
theorem C76_finds (ops : List LOp) (hl : ∀ k ∈ lookedUp ops, ∃ l : Label, k = l.encode) (extra : Nat) (hb : Bounded deployed (atomic [] ops)) {v : LWorld} {outs : List Out}
    (h : lhistory deployed extra ops = some (v, outs)) {t : Nat} {x : Lookup} (ht : v.running.find? (fun l => l.tid = t) = some x) :
    (∀ n, .translated x.key n ∈ outs → ∃ v', lhistory deployed extra (ops ++ [.get t]) = some (v', outs ++ [.found x.key n])) ∧
    ((∀ n, .translated x.key n ∉ outs) → ∃ v', lhistory deployed extra (ops ++ [.get t]) = some (v', outs ++ [.findMissing x.key])) := by
  have hk : ∀ k ∈ lookedUp ops, room deployed extra < k.length := fun k hk => by
    obtain ⟨l, rfl⟩ := hl k hk; exact label_long l
  have hh := C76_labels ops hl extra h
  obtain ⟨w, hi, hr⟩ := lhistory_run h
  have iv := linv_run _ (linv_start hi) hr
  obtain ⟨w1, outs1, h1, h2⟩ := C08_find_exact deployed (atomic [] ops) hb
  rw [hh] at h1
  obtain ⟨rfl, rfl⟩ : v.w = w1 ∧ outs = outs1 := by simpa using h1
  have hx : room deployed extra < x.key.length := running_long ops _ v outs (by simp) hk hr x (List.mem_of_find?_eq_some ht)
  have hread := (iv.long x (List.mem_of_find?_eq_some ht) hx).2.2
  have hstep : ∀ o, history deployed (atomic [] ops ++ [.find x.key]) = some (v.w, outs ++ [o]) → ∃ v', lhistory deployed extra (ops ++ [.get t]) = some (v', outs ++ [o]) := by
    intro o ho
    have ha : answerOf v.w.db x.key (v.w.tr.keys ++ x.key) = some o := by
      simp only [history, hi] at ho hh
      have := run_last_inv hh ho
      rw [find_step] at this
      cases hq : answerOf v.w.db x.key (v.w.tr.keys ++ x.key) with
      | none => rw [hq] at this; cases this
      | some o' => rw [hq] at this; simpa using this
    refine ⟨{ v with running := v.running.filter (fun l => l.tid ≠ t) }, ?_⟩
    simp only [lhistory, hi, lrun_append, hr, Option.bind_some, lrun, lstep, ht, hread, ← iv.keys]
    simp only [answerOf] at ha
    cases hd : v.w.db (v.w.tr.keys ++ x.key) with
    | none => rw [hd] at ha; simp at ha; subst ha; simp
    | some y =>
      rw [hd] at ha
      simp only at ha
      cases hn : btou64 y with
      | none => rw [hn] at ha; cases ha
      | some n => rw [hn] at ha; simp at ha; subst ha; simp [hn]
  obtain ⟨h3, h4⟩ := h2 x.key
  exact ⟨fun n hn => hstep _ (h3 n hn), fun hno => hstep _ (h4 hno)⟩

/-- **C76.** What a lookup asks for, for any key and any room: if the key does not fit into the room, `keys` and the key; if it does, `keys` and the key covered by all keys that fit and were
built by others between its own two steps. -/
theorem C76_exact (c : Config) (extra : Nat) (pre mid : List LOp) (t : Nat) (k : Bytes) (hmid : ∀ op ∈ mid, op ≠ .get t ∧ op ≠ .other .reopen) {v v' : LWorld} {outs outs' : List Out}
    (h : lhistory c extra (pre ++ [.append t k] ++ mid) = some (v, outs)) (h' : lhistory c extra (pre ++ [.append t k] ++ mid ++ [.get t]) = some (v', outs')) :
    ∃ o, outs' = outs ++ [o] ∧
      some o = answerOf v.w.db k (v.w.tr.keys ++ if k.length ≤ room c extra then covered k ((lookedUp mid).filter fun y => y.length ≤ room c extra) else k) := by
  obtain ⟨w, hi, hr⟩ := lhistory_run h
  obtain ⟨w', hi', hr'⟩ := lhistory_run h'
  rw [hi] at hi'; cases hi'
  rw [lrun_append, hr] at hr'
  simp only [Option.bind_some, lrun] at hr'
  rw [lrun_append] at hr
  cases h1 : lrun c extra { w := w, heap := (slices c extra).1, keys := (slices c extra).2 } (pre ++ [.append t k]) with
  | none => rw [h1] at hr; cases hr
  | some p =>
    rw [h1] at hr
    simp only [Option.bind_some] at hr
    have ip := linv_run _ (linv_start hi) h1
    cases h2 : lrun c extra p.1 mid with
    | none => rw [h2] at hr; cases hr
    | some q =>
      rw [h2] at hr
      simp only [Option.map_some, Option.some.injEq, Prod.mk.injEq] at hr
      obtain ⟨rfl, rfl⟩ := hr
      rw [lrun_append] at h1
      cases h3 : lrun c extra { w := w, heap := (slices c extra).1, keys := (slices c extra).2 } pre with
      | none => rw [h3] at h1; cases h1
      | some r =>
        rw [h3] at h1
        have ir := linv_run _ (linv_start hi) h3
        simp only [Option.bind_some, lrun] at h1
        cases h4 : lstep c extra r.1 (.append t k) with
        | none => rw [h4] at h1; cases h1
        | some x =>
          rw [h4] at h1
          simp only [Option.map_some, Option.some.injEq] at h1
          simp only [lstep] at h4
          split at h4
          · cases h4
          rename_i hany
          have hnone : r.1.running.find? (fun l => decide (l.tid = t)) = none := by
            rw [List.find?_eq_none]
            intro l hl
            simp only [List.any_eq_true, not_exists, not_and] at hany
            exact hany l hl
          cases h4
          subst h1
          have hm := mid_run mid _ _ _ (goAppend r.1.heap r.1.keys k).2 k ip hmid (by simp only [List.find?_append, hnone]; simp) (read_append ir.shape k) rfl (fun _ => rfl) h2
          have iq := linv_run _ ip h2
          cases hs : lstep c extra q.1 (.get t) with
          | none => rw [hs] at hr'; cases hr'
          | some y =>
            obtain ⟨v1, o1⟩ := y
            rw [hs] at hr'
            simp only [Option.map_some, Option.some.injEq, Prod.mk.injEq] at hr'
            obtain ⟨-, rfl⟩ := hr'
            obtain ⟨l, e1, e2, e3, e4⟩ := get_step hs
            rw [hm.1] at e1
            cases e1
            obtain ⟨o, rfl⟩ := Option.isSome_iff_exists.mp e4
            refine ⟨o, by simp, ?_⟩
            rw [← e3, hm.2, iq.keys]

/-! ## Examples -/

/-- Two labels, looked up at the same time, while a third is being translated. -/
def Tr.twoLookups : List LOp :=
  [.other (.begin 1 (Label.encode { resource := 2, pfx := 11, key := [97] })), .other (.commit 1 false), .other (.begin 1 (Label.encode { resource := 2, pfx := 11, key := [98] })),
   .other (.commit 1 false), .append 2 (Label.encode { resource := 2, pfx := 11, key := [97] }), .append 3 (Label.encode { resource := 2, pfx := 11, key := [98] }),
   .other (.begin 1 (Label.encode {})), .get 2, .get 3]

example : (lhistory deployed 0 twoLookups).map (·.2) = some [.started, .translated [50, 58, 49, 49, 58, 97] 0, .started, .translated [50, 58, 49, 49, 58, 98] 1, .started,
    .found [50, 58, 49, 49, 58, 97] 0, .found [50, 58, 49, 49, 58, 98] 1] := by rfl
example : ∀ k ∈ lookedUp twoLookups, ∃ l : Label, k = l.encode := by
  intro k hk
  simp only [twoLookups, lookedUp, List.mem_cons, List.not_mem_nil, or_false] at hk
  rcases hk with rfl | rfl <;> exact ⟨_, rfl⟩
example : Bounded deployed (atomic [] twoLookups) := by constructor <;> decide

/-- Shorter keys are mixed up: with a translator opened as the program opens it, a lookup of `a` that another lookup of `b` overtakes returns the id of `b`. -/
theorem C76_short_refuted : ∃ (ops : List LOp) (outs : List Out), (lhistory deployed 0 ops).map (·.2) = some (outs ++ [.found [97] 1]) ∧ .translated [97] 0 ∈ outs ∧ .translated [98] 1 ∈ outs := by
  refine ⟨[.other (.begin 1 [97]), .other (.commit 1 false), .other (.begin 1 [98]), .other (.commit 1 false), .append 2 [97], .append 3 [98], .get 2],
    [.started, .translated [97] 0, .started, .translated [98] 1], ?_, by simp, by simp⟩
  rfl

end Verif
