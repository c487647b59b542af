import Verif.Spec.Pool
/-! # Any number of proper programs on shared pools -/
namespace Verif.Pl
variable {Q A α β : Type}

theorem Prog.bind_eq (p : Prog Q A α) (g : α → Prog Q A β) : (p >>= g) = Prog.bind p g := rfl
theorem Prog.pure_eq (a : α) : (pure a : Prog Q A α) = .done a := rfl

theorem Prog.ends_bind {σ : Type} {R : σ → Q → A → σ → Prop} (g : α → Prog Q A β) (Φ : β → σ → Own → Prop) : ∀ (p : Prog Q A α) (s : σ) (l : Own),
    (p >>= g).Ends R s l Φ ↔ p.Ends R s l fun a s l => (g a).Ends R s l Φ := by
  intro p
  rw [Prog.bind_eq]
  induction p with
  | done a => intro s l; rfl
  | get κ k ih => intro s l; exact ih _ _ _
  | act r f k ih => intro s l; exact exists_congr fun o => and_congr_right fun _ => ih _ _ _
  | put r k ih => intro s l; exact exists_congr fun o => and_congr_right fun _ => and_congr_right fun _ => ih _ _
  | ask q k ih => intro s l; exact forall_congr' fun a => forall_congr' fun s' => imp_congr_right fun _ => ih _ _ _

theorem Prog.ends_mono {σ : Type} {R : σ → Q → A → σ → Prop} {Φ Ψ : α → σ → Own → Prop} (h : ∀ a s l, Φ a s l → Ψ a s l) : ∀ (p : Prog Q A α) (s : σ) (l : Own),
    p.Ends R s l Φ → p.Ends R s l Ψ := by
  intro p
  induction p with
  | done a => intro s l; exact h _ _ _
  | get κ k ih => intro s l; exact ih _ _ _
  | act r f k ih => rintro s l ⟨o, ho, h⟩; exact ⟨o, ho, ih _ _ _ h⟩
  | put r k ih => rintro s l ⟨o, ho, hr, h⟩; exact ⟨o, ho, hr, ih _ _ h⟩
  | ask q k ih => intro s l hh a s' hR; exact ih _ _ _ (hh a s' hR)

theorem alone_bind {σ : Type} (O : σ → Q → Option (A × σ)) (g : α → Prog Q A β) : ∀ (p : Prog Q A α) (s : σ) (l : Own),
    alone O (p >>= g) s l = (alone O p s l).bind fun x => alone O (g x.1) x.2.1 x.2.2 := by
  intro p
  rw [Prog.bind_eq]
  induction p with
  | done a => intro s l; rfl
  | get κ k ih => intro s l; exact ih _ _ _
  | act r f k ih => intro s l; simp only [Prog.bind, alone]; split <;> [rfl; exact ih _ _ _]
  | put r k ih => intro s l; simp only [Prog.bind, alone]; split <;> [rfl; exact ih _ _]
  | ask q k ih => intro s l; simp only [Prog.bind, alone]; split <;> [rfl; exact ih _ _ _]

theorem ends_alone {σ : Type} {R : σ → Q → A → σ → Prop} [DecidableEq Q] {Φ : α → σ → Own → Prop} : ∀ (p : Prog Q A α) (s s' : σ) (l : Own) (log : List (Q × A)) (a : α) (l' : Own),
    p.Ends R s l Φ → Obeys R s log s' → alone replay p log l = some (a, [], l') → Φ a s' l' := by
  intro p
  induction p with
  | done a =>
    intro s s' l log a' l' h1 h2 h3
    simp only [alone, Option.some.injEq, Prod.mk.injEq] at h3
    obtain ⟨rfl, rfl, rfl⟩ := h3
    cases h2; exact h1
  | get κ k ih => intro s s' l log a' l' h1 h2 h3; exact ih _ _ _ _ _ _ _ h1 h2 h3
  | act r f k ih =>
    rintro s s' l log a' l' ⟨o, ho, h1⟩ h2 h3
    simp only [alone, ho] at h3
    exact ih _ _ _ _ _ _ _ h1 h2 h3
  | put r k ih =>
    rintro s s' l log a' l' ⟨o, ho, -, h1⟩ h2 h3
    simp only [alone, ho] at h3
    exact ih _ _ _ _ _ _ h1 h2 h3
  | ask q k ih =>
    intro s s' l log a' l' h1 h2 h3
    match log, h2, h3 with
    | [], _, h3 => simp [alone, replay] at h3
    | (q', x) :: log, ⟨s1, hR, h2⟩, h3 =>
      simp only [alone, replay] at h3
      by_cases hq : q' = q
      · subst hq
        rw [if_pos rfl] at h3
        exact ih _ _ _ _ _ _ _ (h1 _ _ hR) h2 h3
      · rw [if_neg hq] at h3; cases h3

/-- With answers that do not end, a program ends. -/
theorem ends_total {σ : Type} (f : σ → Q → A × σ) {Φ : α → σ → Own → Prop} : ∀ (p : Prog Q A α) (s : σ) (l : Own),
    p.Ends (fun s q a s' => (a, s') = f s q) s l Φ → ∃ a s' l', alone (fun s q => some (f s q)) p s l = some (a, s', l') ∧ Φ a s' l' := by
  intro p
  induction p with
  | done a => intro s l h; exact ⟨_, _, _, rfl, h⟩
  | get κ k ih => intro s l h; exact ih _ _ _ h
  | act r f k ih => rintro s l ⟨o, ho, h⟩; simp only [alone, ho]; exact ih _ _ _ h
  | put r k ih => rintro s l ⟨o, ho, -, h⟩; simp only [alone, ho]; exact ih _ _ h
  | ask q k ih => intro s l h; simp only [alone]; exact ih _ _ _ (h _ _ rfl)

/-- A program with what it was told so far. -/
abbrev Ghost (Q A α : Type) := Prog Q A α × Own

variable [DecidableEq Q]

/-- Object `e` belongs to goroutine `t`, which calls it `r`. -/
def Owns (gs : List (Ghost Q A α)) (ths : List (Thread Q A α)) (t r e : Nat) : Prop :=
  ∃ g th, gs[t]? = some g ∧ ths[t]? = some th ∧ (g.2.at_ r).isSome ∧ th.held[r]? = some e

structure ThOk (objs : List Obj) (g : Ghost Q A α) (th : Thread Q A α) : Prop where
  ends : th.prog.Ends anything () g.2 fun _ _ _ => True
  same : ∀ rest, alone replay g.1 (th.log ++ rest) {} = alone replay th.prog rest g.2
  len : th.held.length = g.2.n
  at_ : ∀ r o, g.2.at_ r = some o → ∃ e, th.held[r]? = some e ∧ objs[e]? = some o

structure Inv (gs : List (Ghost Q A α)) (w : World Q A α) : Prop where
  len : gs.length = w.threads.length
  th : ∀ (t : Nat) g th, gs[t]? = some g → w.threads[t]? = some th → ThOk w.objs g th
  excl : ∀ t r e t' r', Owns gs w.threads t r e → Owns gs w.threads t' r' e → t = t' ∧ r = r'
  busy : ∀ t r e, Owns gs w.threads t r e → e ∉ w.free
  nodup : w.free.Nodup
  clean : ∀ e ∈ w.free, ∃ o, w.objs[e]? = some o ∧ o = fresh o.kind

theorem lt_of_get {α : Type} {l : List α} {i : Nat} {a : α} (h : l[i]? = some a) : i < l.length := by
  obtain ⟨h, -⟩ := List.getElem?_eq_some_iff.mp h; exact h

theorem owned_lt {gs : List (Ghost Q A α)} {w : World Q A α} (i : Inv gs w) {t r e : Nat} (h : Owns gs w.threads t r e) : e < w.objs.length := by
  obtain ⟨g, th, h1, h2, h3, h4⟩ := h
  obtain ⟨o, ho⟩ := Option.isSome_iff_exists.mp h3
  obtain ⟨e', h5, h6⟩ := (i.th t g th h1 h2).at_ r o ho
  rw [h4] at h5; cases h5
  exact lt_of_get h6

omit [DecidableEq Q] in
/-- Replacing goroutine `t`: who owns what. -/
theorem owns_set {gs : List (Ghost Q A α)} {ths : List (Thread Q A α)} {t : Nat} {g' : Ghost Q A α} {th' : Thread Q A α} {u r e : Nat}
    (h : Owns (gs.set t g') (ths.set t th') u r e) : (u = t ∧ (g'.2.at_ r).isSome ∧ th'.held[r]? = some e) ∨ (u ≠ t ∧ Owns gs ths u r e) := by
  obtain ⟨g, th, h1, h2, h3, h4⟩ := h
  by_cases hu : u = t
  · subst hu
    rw [List.getElem?_set] at h1 h2
    simp only [if_true] at h1 h2
    split at h1 <;> cases h1
    split at h2 <;> cases h2
    exact .inl ⟨rfl, h3, h4⟩
  · rw [List.getElem?_set, if_neg (fun h => hu h.symm)] at h1 h2
    exact .inr ⟨hu, g, th, h1, h2, h3, h4⟩

/-- The thread that takes a step, and the rest of the world. -/
theorem inv_set {gs : List (Ghost Q A α)} {w : World Q A α} (i : Inv gs w) {t : Nat} {g g' : Ghost Q A α} {th th' : Thread Q A α} (hg : gs[t]? = some g) (ht : w.threads[t]? = some th)
    {objs : List Obj} {free : List Nat} (hth : ThOk objs g' th')
    (hkeep : ∀ u r e o, u ≠ t → Owns gs w.threads u r e → w.objs[e]? = some o → objs[e]? = some o)
    (hown : ∀ r e, (g'.2.at_ r).isSome → th'.held[r]? = some e → e ∉ free ∧ (∀ u r', u ≠ t → ¬ Owns gs w.threads u r' e) ∧
      ∀ r', (g'.2.at_ r').isSome → th'.held[r']? = some e → r = r')
    (hfree : ∀ e ∈ free, (e ∈ w.free ∨ ∃ r, Owns gs w.threads t r e) ∧ ∃ o, objs[e]? = some o ∧ o = fresh o.kind) (hn : free.Nodup) :
    Inv (gs.set t g') { objs := objs, free := free, threads := w.threads.set t th' } := by
  have htl := lt_of_get ht
  have hgl := lt_of_get hg
  refine ⟨by simp [i.len], ?_, ?_, ?_, hn, fun e he => (hfree e he).2⟩
  · intro u gu thu h1 h2
    by_cases hu : u = t
    · subst hu
      simp only [List.getElem?_set, if_true, if_pos htl, if_pos hgl] at h1 h2
      cases h1; cases h2; exact hth
    · simp only [List.getElem?_set, if_neg (fun h => hu (Eq.symm h))] at h1 h2
      have hk := i.th u gu thu h1 h2
      refine ⟨hk.ends, hk.same, hk.len, ?_⟩
      intro r o ho
      obtain ⟨e, h3, h4⟩ := hk.at_ r o ho
      exact ⟨e, h3, hkeep u r e o hu ⟨gu, thu, h1, h2, by rw [ho]; rfl, h3⟩ h4⟩
  · intro u r e u' r' h h'
    rcases owns_set h with ⟨rfl, h1, h2⟩ | ⟨hu, h1⟩ <;> rcases owns_set h' with ⟨rfl, h3, h4⟩ | ⟨hu', h3⟩
    · exact ⟨rfl, (hown r e h1 h2).2.2 r' h3 h4⟩
    · exact absurd h3 ((hown r e h1 h2).2.1 _ _ hu')
    · exact absurd h1 ((hown r' e h3 h4).2.1 _ _ hu)
    · exact i.excl _ _ _ _ _ h1 h3
  · intro u r e h
    rcases owns_set h with ⟨rfl, h1, h2⟩ | ⟨hu, h1⟩
    · exact (hown r e h1 h2).1
    · intro he
      rcases (hfree e he).1 with h2 | ⟨r', h2⟩
      · exact i.busy _ _ _ h1 h2
      · exact hu (i.excl _ _ _ _ _ h1 h2).1

/-- The facts about goroutine `t`'s own objects. -/
theorem own_facts {gs : List (Ghost Q A α)} {w : World Q A α} (i : Inv gs w) {t : Nat} {g : Ghost Q A α} {th : Thread Q A α} (hg : gs[t]? = some g)
    (ht : w.threads[t]? = some th) {r e : Nat} (h : (g.2.at_ r).isSome) (he : th.held[r]? = some e) :
    e ∉ w.free ∧ (∀ u r', u ≠ t → ¬ Owns gs w.threads u r' e) ∧ ∀ r', (g.2.at_ r').isSome → th.held[r']? = some e → r = r' := by
  have ho : Owns gs w.threads t r e := ⟨g, th, hg, ht, h, he⟩
  exact ⟨i.busy _ _ _ ho, fun u r' hu h' => hu (i.excl _ _ _ _ _ h' ho).1, fun r' h1 h2 => (i.excl _ _ _ _ _ ho ⟨g, th, hg, ht, h1, h2⟩).2⟩

theorem inv_go {gs : List (Ghost Q A α)} {w w' : World Q A α} (i : Inv gs w) {t : Nat} {pick : Option Nat} {a : A} (h : step w (.go t pick a) = some w') :
    ∃ l, (∃ g, gs[t]? = some g ∧ Inv (gs.set t (g.1, l)) w') := by
  simp only [step] at h
  split at h
  · cases h
  rename_i th ht
  split at h
  · cases h
  rename_i objs free th' hs
  cases h
  have htl := lt_of_get ht
  obtain ⟨g, hg⟩ : ∃ g, gs[t]? = some g := ⟨_, List.getElem?_eq_getElem (by rw [i.len]; exact htl)⟩
  have hk := i.th t g th hg ht
  have hkeep0 : ∀ u r e o, u ≠ t → Owns gs w.threads u r e → w.objs[e]? = some o → w.objs[e]? = some o := fun _ _ _ _ _ _ h => h
  have hfree0 : ∀ e ∈ w.free, (e ∈ w.free ∨ ∃ r, Owns gs w.threads t r e) ∧ ∃ o, w.objs[e]? = some o ∧ o = fresh o.kind := fun e he => ⟨.inl he, i.clean e he⟩
  simp only [Thread.step] at hs
  split at hs
  · cases hs
  · rename_i κ k hp
    have hE : (k g.2.n).Ends anything () (g.2.add (fresh κ)) fun _ _ _ => True := by have := hk.ends; rw [hp] at this; exact this
    have hS : ∀ rest, alone replay g.1 (th.log ++ rest) {} = alone replay (k g.2.n) rest (g.2.add (fresh κ)) := by
      intro rest; have := hk.same rest; rw [hp] at this; exact this
    split at hs
    · cases hs
      refine ⟨g.2.add (fresh κ), g, hg, inv_set i hg ht ⟨by rw [hk.len]; exact hE, by rw [hk.len]; exact hS, by simp [Own.add, hk.len], ?_⟩ ?_ ?_ ?_ i.nodup⟩
      · intro r o ho
        simp only [Own.add] at ho
        split at ho
        · rename_i hr; cases ho
          exact ⟨w.objs.length, by simp [hr, hk.len], by simp⟩
        · obtain ⟨e, h1, h2⟩ := hk.at_ r o ho
          exact ⟨e, by rw [List.getElem?_append_left (lt_of_get h1)]; exact h1, by rw [List.getElem?_append_left (lt_of_get h2)]; exact h2⟩
      · intro u r e o _ _ ho
        rw [List.getElem?_append_left (lt_of_get ho)]; exact ho
      · have hnew : ∀ r e, ((g.2.add (fresh κ)).at_ r).isSome → (th.held ++ [w.objs.length])[r]? = some e →
            (r = g.2.n ∧ e = w.objs.length) ∨ ((g.2.at_ r).isSome ∧ th.held[r]? = some e) := by
          intro r e h1 h2
          by_cases hr : r = g.2.n
          · subst hr; left; refine ⟨rfl, ?_⟩
            rw [List.getElem?_append_right (by rw [hk.len])] at h2
            simp [hk.len] at h2; exact h2.symm
          · right
            have h3 : (g.2.at_ r).isSome := by simpa [Own.add, hr] using h1
            obtain ⟨o, ho⟩ := Option.isSome_iff_exists.mp h3
            obtain ⟨e', h4, -⟩ := hk.at_ r o ho
            rw [List.getElem?_append_left (lt_of_get h4)] at h2
            exact ⟨h3, h2⟩
        intro r e h1 h2
        rcases hnew r e h1 h2 with ⟨rfl, rfl⟩ | ⟨h3, h4⟩
        · refine ⟨fun he => ?_, fun u r' _ ho => absurd (owned_lt i ho) (by omega), fun r' h5 h6 => ?_⟩
          · obtain ⟨o, ho, -⟩ := i.clean _ he
            exact absurd (lt_of_get ho) (by omega)
          · rcases hnew r' _ h5 h6 with ⟨rfl, -⟩ | ⟨h7, h8⟩
            · rfl
            · exact absurd (owned_lt i ⟨g, th, hg, ht, h7, h8⟩) (by omega)
        · obtain ⟨f1, f2, f3⟩ := own_facts i hg ht h3 h4
          refine ⟨f1, f2, fun r' h5 h6 => ?_⟩
          rcases hnew r' _ h5 h6 with ⟨-, rfl⟩ | ⟨h7, h8⟩
          · exact absurd (owned_lt i ⟨g, th, hg, ht, h3, h4⟩) (by omega)
          · exact f3 r' h7 h8
      · intro e he
        obtain ⟨o, h1, h2⟩ := i.clean e he
        exact ⟨.inl he, o, by rw [List.getElem?_append_left (lt_of_get h1)]; exact h1, h2⟩
    · rename_i j
      split at hs
      · cases hs
      rename_i e0 he0
      split at hs
      · cases hs
      rename_i o0 ho0
      split at hs
      · rename_i hkind
        cases hs
        have hmem : e0 ∈ w.free := List.mem_of_getElem? he0
        have hfr : o0 = fresh κ := by
          obtain ⟨o, h1, h2⟩ := i.clean e0 hmem
          rw [ho0] at h1; cases h1; rw [hkind] at h2; exact h2
        have hsub : ∀ e, e ∈ w.free.eraseIdx j → e ∈ w.free ∧ e ≠ e0 := by
          intro e he
          have hm := List.mem_of_mem_eraseIdx he
          refine ⟨hm, ?_⟩
          intro hee
          rw [hee] at he
          obtain ⟨m, hm2⟩ := List.mem_iff_getElem?.mp he
          rw [List.getElem?_eraseIdx] at hm2
          split at hm2
          · rename_i hlt
            have := (List.nodup_iff_getElem?_ne_getElem?.mp i.nodup) m j hlt (lt_of_get he0)
            exact this (by rw [hm2, he0])
          · have := (List.nodup_iff_getElem?_ne_getElem?.mp i.nodup) j (m + 1) (by omega) (lt_of_get hm2)
            exact this (by rw [hm2, he0])
        refine ⟨g.2.add (fresh κ), g, hg, inv_set i hg ht ⟨by rw [hk.len]; exact hE, by rw [hk.len]; exact hS, by simp [Own.add, hk.len], ?_⟩ hkeep0 ?_ ?_
          (i.nodup.sublist (List.eraseIdx_sublist ..))⟩
        · intro r o ho
          simp only [Own.add] at ho
          split at ho
          · rename_i hr; cases ho
            exact ⟨e0, by simp [hr, hk.len], by rw [ho0, hfr]⟩
          · obtain ⟨e, h1, h2⟩ := hk.at_ r o ho
            exact ⟨e, by rw [List.getElem?_append_left (lt_of_get h1)]; exact h1, h2⟩
        · have hnew : ∀ r e, ((g.2.add (fresh κ)).at_ r).isSome → (th.held ++ [e0])[r]? = some e →
              (r = g.2.n ∧ e = e0) ∨ ((g.2.at_ r).isSome ∧ th.held[r]? = some e) := by
            intro r e h1 h2
            by_cases hr : r = g.2.n
            · subst hr; left; refine ⟨rfl, ?_⟩
              rw [List.getElem?_append_right (by rw [hk.len])] at h2
              simp [hk.len] at h2; exact h2.symm
            · right
              have h3 : (g.2.at_ r).isSome := by simpa [Own.add, hr] using h1
              obtain ⟨o, ho⟩ := Option.isSome_iff_exists.mp h3
              obtain ⟨e', h4, -⟩ := hk.at_ r o ho
              rw [List.getElem?_append_left (lt_of_get h4)] at h2
              exact ⟨h3, h2⟩
          intro r e h1 h2
          rcases hnew r e h1 h2 with ⟨rfl, rfl⟩ | ⟨h3, h4⟩
          · refine ⟨fun he => (hsub _ he).2 rfl, fun u r' _ ho => i.busy _ _ _ ho hmem, fun r' h5 h6 => ?_⟩
            rcases hnew r' _ h5 h6 with ⟨rfl, -⟩ | ⟨h7, h8⟩
            · rfl
            · exact absurd hmem (i.busy _ _ _ ⟨g, th, hg, ht, h7, h8⟩)
          · obtain ⟨f1, f2, f3⟩ := own_facts i hg ht h3 h4
            refine ⟨fun he => f1 (hsub _ he).1, f2, fun r' h5 h6 => ?_⟩
            rcases hnew r' _ h5 h6 with ⟨-, rfl⟩ | ⟨h7, h8⟩
            · exact absurd hmem f1
            · exact f3 r' h7 h8
        · intro e he
          exact ⟨.inl (hsub e he).1, i.clean e (hsub e he).1⟩
      · cases hs
  · rename_i r f k hp
    have h0 := hk.ends
    rw [hp] at h0
    obtain ⟨o, ho, hE⟩ := h0
    obtain ⟨e, he, heo⟩ := hk.at_ r o ho
    rw [he] at hs
    simp only [heo] at hs
    cases hs
    obtain ⟨f1, f2, f3⟩ := own_facts i hg ht (by rw [ho]; rfl) he
    have hsame : ∀ r', (g.2.set r (some (f o))).at_ r' |>.isSome → (g.2.at_ r').isSome := by
      intro r' h
      simp only [Own.set] at h
      split at h
      · rename_i hr; rw [hr, ho]; rfl
      · exact h
    refine ⟨g.2.set r (some (f o)), g, hg, inv_set i hg ht ⟨hE, ?_, hk.len, ?_⟩ ?_ ?_ ?_ i.nodup⟩
    · intro rest
      have := hk.same rest
      rw [hp] at this
      simpa only [alone, ho] using this
    · intro r' o' ho'
      simp only [Own.set] at ho'
      split at ho'
      · rename_i hr; subst hr; cases ho'
        exact ⟨e, he, by simp [lt_of_get heo]⟩
      · rename_i hr
        obtain ⟨e', h1, h2⟩ := hk.at_ r' o' ho'
        refine ⟨e', h1, ?_⟩
        rw [List.getElem?_set, if_neg ?_]; exact h2
        rintro rfl
        exact hr (f3 r' (by rw [ho']; rfl) h1).symm
    · intro u r' e' o' hu hown ho'
      rw [List.getElem?_set, if_neg ?_]; exact ho'
      rintro rfl
      exact f2 u r' hu hown
    · intro r' e' h1 h2
      obtain ⟨a1, a2, a3⟩ := own_facts i hg ht (hsame r' h1) h2
      exact ⟨a1, a2, fun r'' h3 h4 => a3 r'' (hsame r'' h3) h4⟩
    · intro e' he'
      obtain ⟨o', h1, h2⟩ := i.clean e' he'
      refine ⟨.inl he', o', ?_, h2⟩
      rw [List.getElem?_set, if_neg ?_]; exact h1
      rintro rfl; exact f1 he'
  · rename_i r k hp
    have h0 := hk.ends
    rw [hp] at h0
    obtain ⟨o, ho, hrel, hE⟩ := h0
    obtain ⟨e, he, heo⟩ := hk.at_ r o ho
    rw [he] at hs
    simp only [heo] at hs
    cases hs
    obtain ⟨f1, f2, f3⟩ := own_facts i hg ht (by rw [ho]; rfl) he
    have hsame : ∀ r', ((g.2.set r none).at_ r').isSome → r' ≠ r ∧ (g.2.at_ r').isSome := by
      intro r' h
      simp only [Own.set] at h
      split at h
      · cases h
      · rename_i hr; exact ⟨hr, h⟩
    refine ⟨g.2.set r none, g, hg, inv_set i hg ht ⟨hE, ?_, hk.len, ?_⟩ ?_ ?_ ?_ (List.nodup_cons.mpr ⟨f1, i.nodup⟩)⟩
    · intro rest
      have := hk.same rest
      rw [hp] at this
      simpa only [alone, ho] using this
    · intro r' o' ho'
      have hr := (hsame r' (by rw [ho']; rfl)).1
      simp only [Own.set, if_neg hr] at ho'
      obtain ⟨e', h1, h2⟩ := hk.at_ r' o' ho'
      refine ⟨e', h1, ?_⟩
      rw [List.getElem?_set, if_neg ?_]; exact h2
      rintro rfl
      exact hr (f3 r' (by rw [ho']; rfl) h1).symm
    · intro u r' e' o' hu hown ho'
      rw [List.getElem?_set, if_neg ?_]; exact ho'
      rintro rfl
      exact f2 u r' hu hown
    · intro r' e' h1 h2
      obtain ⟨a1, a2, a3⟩ := own_facts i hg ht (hsame r' h1).2 h2
      refine ⟨?_, a2, fun r'' h3 h4 => a3 r'' (hsame r'' h3).2 h4⟩
      intro hm
      rcases List.mem_cons.mp hm with rfl | hm
      · exact (hsame r' h1).1 (f3 r' (hsame r' h1).2 h2).symm
      · exact a1 hm
    · intro e' he'
      by_cases hee : e' = e
      · subst hee
        refine ⟨.inr ⟨r, g, th, hg, ht, by rw [ho]; rfl, he⟩, o.release, by simp [lt_of_get heo], ?_⟩
        rw [hrel]; cases o.kind <;> rfl
      · have hm := (List.mem_cons.mp he').resolve_left hee
        obtain ⟨o', h1, h2⟩ := i.clean e' hm
        refine ⟨.inl hm, o', ?_, h2⟩
        rw [List.getElem?_set, if_neg (fun h => hee h.symm)]; exact h1
  · rename_i q k hp
    cases hs
    refine ⟨g.2, g, hg, inv_set i hg ht ⟨?_, ?_, hk.len, hk.at_⟩ hkeep0 ?_ hfree0 i.nodup⟩
    · have := hk.ends; rw [hp] at this; exact this a () trivial
    · intro rest
      have := hk.same ((q, a) :: rest)
      rw [hp] at this
      simpa [alone, replay] using this
    · intro r e h1 h2; exact own_facts i hg ht h1 h2

theorem inv_step {gs : List (Ghost Q A α)} {w w' : World Q A α} (i : Inv gs w) {s : Step Q A α} (hs : ∀ p, s = .spawn p → p.Proper) (h : step w s = some w') :
    ∃ gs', Inv gs' w' ∧ gs'.map (·.1) = gs.map (·.1) ++ spawned [s] := by
  cases s with
  | spawn p =>
    simp only [step, Option.some.injEq] at h
    subst h
    have ho : ∀ t r e, Owns (gs ++ [(p, ({} : Own))]) (w.threads ++ [{ prog := p }]) t r e → Owns gs w.threads t r e := by
      rintro t r e ⟨g, th, h1, h2, h3, h4⟩
      by_cases ht : t < gs.length
      · rw [List.getElem?_append_left ht] at h1
        rw [List.getElem?_append_left (by rw [← i.len]; exact ht)] at h2
        exact ⟨g, th, h1, h2, h3, h4⟩
      · rw [List.getElem?_append_right (by omega)] at h1
        have h5 := List.mem_of_getElem? h1
        simp at h5; subst h5
        cases h3
    refine ⟨gs ++ [(p, ({} : Own))], ⟨by simp [i.len], ?_, fun t r e t' r' h h' => i.excl _ _ _ _ _ (ho _ _ _ h) (ho _ _ _ h'),
      fun t r e h => i.busy _ _ _ (ho _ _ _ h), i.nodup, i.clean⟩, by simp [spawned]⟩
    intro t g th h1 h2
    by_cases ht : t < gs.length
    · rw [List.getElem?_append_left ht] at h1
      rw [List.getElem?_append_left (by rw [← i.len]; exact ht)] at h2
      exact i.th t g th h1 h2
    · rw [List.getElem?_append_right (by omega)] at h1
      rw [List.getElem?_append_right (by rw [← i.len]; omega)] at h2
      have h5 := List.mem_of_getElem? h1
      have h6 := List.mem_of_getElem? h2
      simp at h5 h6; subst h5 h6
      exact ⟨hs p rfl, fun rest => by simp, rfl, fun r o h => by cases h⟩
  | go t pick a =>
    obtain ⟨l, g, hg, hi⟩ := inv_go i h
    refine ⟨_, hi, ?_⟩
    simp only [spawned, List.append_nil, List.map_set]
    apply List.ext_getElem?
    intro n
    rw [List.getElem?_set]
    split
    · rename_i hn; subst hn; rw [if_pos (by simpa using lt_of_get hg)]; simp [hg]
    · rfl
  | drop j =>
    simp only [step, Option.some.injEq] at h
    subst h
    refine ⟨gs, ⟨i.len, i.th, i.excl, fun t r e h he => i.busy t r e h (List.mem_of_mem_eraseIdx he), i.nodup.sublist (List.eraseIdx_sublist ..),
      fun e he => i.clean e (List.mem_of_mem_eraseIdx he)⟩, by simp [spawned]⟩

theorem inv_run : ∀ (ls : List (Step Q A α)) {gs : List (Ghost Q A α)} {w w' : World Q A α}, Inv gs w → (∀ p ∈ spawned ls, p.Proper) → run w ls = some w' →
    ∃ gs', Inv gs' w' ∧ gs'.map (·.1) = gs.map (·.1) ++ spawned ls := by
  intro ls
  induction ls with
  | nil => intro gs w w' i _ h; cases h; exact ⟨gs, i, by simp [spawned]⟩
  | cons s ls ih =>
    intro gs w w' i hp h
    simp only [run] at h
    split at h
    · cases h
    rename_i w1 hw
    have hsp : spawned (s :: ls) = spawned [s] ++ spawned ls := by cases s <;> rfl
    obtain ⟨gs1, i1, e1⟩ := inv_step i (fun p hs => hp p (by subst hs; exact List.mem_cons_self ..)) hw
    obtain ⟨gs2, i2, e2⟩ := ih i1 (fun p hm => hp p (by rw [hsp]; exact List.mem_append_right _ hm)) h
    exact ⟨gs2, i2, by rw [e2, e1, hsp, List.append_assoc]⟩

theorem inv_start : Inv ([] : List (Ghost Q A α)) {} := by
  refine ⟨rfl, ?_, ?_, ?_, List.nodup_nil, ?_⟩
  · intro t g th h; simp at h
  · rintro t r e t' r' ⟨g, th, h, -⟩; simp at h
  · rintro t r e ⟨g, th, h, -⟩; simp at h
  · intro e he; cases he

end Verif.Pl
