import Verif.Lemmas.Concurrent
import Verif.Lemmas.Scan
/-!
# Facts about scanning while samples are flushed, without provisos
-/
namespace Verif.St
open Tm Tf
open Bt (Frags Entry shardWidth makeFragments)
variable {σ : Type} {D : Dict σ} {st : σ}

/-! ### What landed stays -/

theorem entry_unique {r : Int} {s s1 s2 : Sample} {e1 e2 : Entry} (h1 : EntryOf D st r s s1 e1) (h2 : EntryOf D st r s s2 e2) : e1 = e2 := by
  obtain ⟨a1, a2, ⟨b1, a3, a4, a5⟩, -, a6⟩ := h1
  obtain ⟨c1, c2, ⟨b2, c3, c4, c5⟩, -, c6⟩ := h2
  rw [a6] at a2
  rw [c6] at c2
  have : b1 = b2 := Bm.ext a4 c4 fun n => by rw [a5, c5]
  obtain ⟨i, l, q⟩ := e1
  obtain ⟨i', l', q'⟩ := e2
  simp only at a1 a2 a3 c1 c2 c3
  subst this
  simp only [a1, a2, a3, c1, c2, c3]

theorem processed_unique : ∀ {r : Int} {ss s1 s2 : List Sample} {e1 e2 : List Entry}, Processed D st r ss s1 e1 → Processed D st r ss s2 e2 → e1 = e2
  | _, [], [], [], [], [], _, _ => rfl
  | _, _ :: _, _ :: _, _ :: _, _ :: _, _ :: _, h1, h2 => by rw [entry_unique h1.1 h2.1, processed_unique h1.2 h2.2]
  | _, [], _ :: _, _, _, _, h, _ => h.elim
  | _, [], [], _, _ :: _, _, h, _ => h.elim
  | _, [], [], _ :: _, [], _, _, h => h.elim
  | _, [], [], [], [], _ :: _, _, h => h.elim
  | _, _ :: _, [], _, _, _, h, _ => h.elim
  | _, _ :: _, _ :: _, _, [], _, h, _ => h.elim
  | _, _ :: _, _ :: _, [], _ :: _, _, _, h => h.elim
  | _, _ :: _, _ :: _, _ :: _, _ :: _, [], _, h => h.elim

/-- The same flush, at least as far committed. -/
def Further (P Q : List (Int × Flush)) : Prop :=
  ∀ (p : Nat) x, P[p]? = some x → ∃ c, x.2.commits ≤ c ∧ Q[p]? = some (x.1, { x.2 with commits := c })

theorem Further.refl (P : List (Int × Flush)) : Further P P := fun _ x h => ⟨x.2.commits, Nat.le_refl _, h⟩

theorem Further.trans {P Q R : List (Int × Flush)} (h : Further P Q) (h' : Further Q R) : Further P R := fun p x hx => by
  obtain ⟨c, h1, h2⟩ := h p x hx
  obtain ⟨c', h3, h4⟩ := h' p _ h2
  exact ⟨c', Nat.le_trans h1 h3, h4⟩

theorem Further.append (P Q : List (Int × Flush)) : Further P (P ++ Q) := fun p x h =>
  ⟨x.2.commits, Nat.le_refl _, by rw [List.getElem?_append_left (List.getElem?_eq_some_iff.1 h).1]; exact h⟩

theorem Further.left (A : List (Int × Flush)) {P Q : List (Int × Flush)} (h : Further P Q) : Further (A ++ P) (A ++ Q) := fun p x hx => by
  by_cases hp : p < A.length
  · rw [List.getElem?_append_left hp] at hx ⊢
    exact ⟨x.2.commits, Nat.le_refl _, hx⟩
  · rw [List.getElem?_append_right (by omega)] at hx ⊢
    exact h _ x hx

theorem further_take {fls : List Flush} {i j : Nat} (h : i ≤ j) (r : Int) : Further (plainF r (fls.take i)) (plainF r (fls.take j)) := by
  have e : fls.take j = fls.take i ++ (fls.drop i).take (j - i) := by
    have := List.take_add (l := fls) (i := i) (j := j - i)
    rwa [show i + (j - i) = j by omega] at this
  rw [e, plainF_append]
  exact Further.append _ _

theorem further_snoc (fls : List Flush) (r : Int) {fl : Flush} {c c' : Nat} (h : c ≤ c') :
    Further (plainF r (fls ++ [{ fl with commits := c }])) (plainF r (fls ++ [{ fl with commits := c' }])) := by
  rw [plainF_append, plainF_append]
  refine Further.left _ fun p x hx => ?_
  cases p with
  | zero =>
    simp only [plainF, List.getElem?_cons_zero, Option.some.injEq] at hx ⊢
    subst hx
    exact ⟨c', h, rfl⟩
  | succ p => simp [plainF] at hx

theorem done_further_upper (fls : List Flush) (m : Moment σ) (r : Int) : Further (plainF r (m.done fls)) (plainF r (fls.take (m.j + 1))) := by
  unfold Moment.done
  split
  · rename_i fl c h _
    rw [List.take_add_one, h]
    exact further_snoc (fl := fl) (fls.take m.j) r (Nat.min_le_right c fl.commits)
  · exact further_take (by omega) r

theorem done_further_lower (fls : List Flush) (m : Moment σ) (r : Int) : Further (plainF r (fls.take m.j)) (plainF r (m.done fls)) := by
  unfold Moment.done
  split
  · rw [plainF_append]; exact Further.append _ _
  · exact Further.refl _

theorem Moment.further (fls : List Flush) {a b : Moment σ} (h : a.Le D b) (r : Int) : Further (plainF r (a.done fls)) (plainF r (b.done fls)) := by
  rcases h with h | ⟨h, h'⟩
  · exact (done_further_upper fls a r).trans ((further_take h r).trans (done_further_lower fls b r))
  · cases e : fls[a.j]? with
    | none =>
      have e1 : a.done fls = fls.take a.j := by unfold Moment.done; simp only [e]
      have e2 : b.done fls = fls.take a.j := by unfold Moment.done; simp only [← h, e]
      rw [e1, e2]; exact Further.refl _
    | some fl =>
      cases hta : a.tick with
      | translating st1 =>
        have e1 : a.done fls = fls.take a.j := by unfold Moment.done; simp only [e, hta]
        rw [e1, h]; exact done_further_lower fls b r
      | committed c =>
        cases htb : b.tick with
        | translating st2 => rw [hta, htb] at h'; exact h'.elim
        | committed c' =>
          rw [hta, htb] at h'
          have e1 : a.done fls = fls.take a.j ++ [{ fl with commits := min c fl.commits }] := by unfold Moment.done; simp only [e, hta]
          have e2 : b.done fls = fls.take a.j ++ [{ fl with commits := min c' fl.commits }] := by
            unfold Moment.done; simp only [← h, e, htb]
          rw [e1, e2]
          have h' : c ≤ c' := h'
          exact further_snoc _ r (by omega)

theorem tag_strip (ok ok' : Bool) (r : Int) (ss : List Sample) :
    (tag ok r ss).map (fun o => (o.res, o.sample)) = (tag ok' r ss).map fun o => (o.res, o.sample) := by
  induction ss generalizing r with
  | nil => rfl
  | cons x xs ih => simp only [tag, List.map_cons, ih]

/-- Accounts only grow. -/
theorem At.stays {ops : List (Op σ)} {fls : List Flush} {a b : Moment σ} {ra rb : List Rec} {sa sb : List Sh.Op}
    (ha : At D st ops fls a ra sa) (hb : At D st ops fls b rb sb) (h : a.Le D b)
    (hg : Grows D (a.store D (run D st ops) fls).ctx.st (b.store D (run D st ops) fls).ctx.st) :
    Stays (ra.map Rec.landed) (rb.map Rec.landed) := by
  have hF : Further (ra.map fun c => (c.r, c.fl)) (rb.map fun c => (c.r, c.fl)) := by
    rw [ha.plain, hb.plain, plain_append, plain_append]
    exact Further.left _ (Moment.further fls h _)
  intro p f hf
  rw [List.getElem?_map] at hf
  cases hc : ra[p]? with
  | none => rw [hc] at hf; cases hf
  | some c =>
    rw [hc, Option.map_some, Option.some.injEq] at hf
    subst hf
    obtain ⟨n, hn, hx⟩ := hF p (c.r, c.fl) (by rw [List.getElem?_map, hc]; rfl)
    rw [List.getElem?_map] at hx
    cases hc' : rb[p]? with
    | none => rw [hc'] at hx; cases hx
    | some c' =>
      rw [hc', Option.map_some, Option.some.injEq, Prod.mk.injEq] at hx
      obtain ⟨e1, e2⟩ := hx
      simp only at e1 e2 hn
      have ho := (ha.hist.oks c (List.mem_of_getElem? hc)).mono hg
      have ho' := hb.hist.oks c' (List.mem_of_getElem? hc')
      have em : c'.m = c.m := by
        have g1 := ho.group
        have g2 := ho'.group
        unfold Rec.ss at g1 g2
        rw [e2, g1, Option.some.injEq] at g2
        exact g2.symm
      have ees : c'.es = c.es := by
        have g1 := ho.proc
        have g2 := ho'.proc
        rw [e1, e2] at g2
        exact processed_unique g2 g1
      have ef : c'.f = c.f := by rw [ho.frags, ho'.frags, ees]
      refine ⟨c'.landed, by rw [List.getElem?_map, hc']; rfl, ?_, fun v hv => ?_, fun k hk => ?_⟩
      · show (tag c'.ok c'.r c'.fl.samples).map _ = (tag c.ok c.r c.fl.samples).map _
        rw [e1, e2]; exact tag_strip _ _ _ _
      · unfold Rec.landed at hv ⊢
        simp only at hv ⊢
        rw [em, e2]
        obtain ⟨e, he, rfl⟩ := List.mem_map.1 hv
        exact List.mem_map.2 ⟨e, (List.take_subset_take_left _ hn) he, rfl⟩
      · unfold Rec.landed at hk ⊢
        simp only at hk ⊢
        by_cases hfr : c.framed = true
        · rw [if_pos hfr] at hk
          have hfr' : c'.framed = true := by
            unfold Rec.framed at hfr ⊢
            rw [em, e2]; exact decide_eq_true (Nat.le_trans (of_decide_eq_true hfr) hn)
          rw [if_pos hfr', ef, em, e2]
          obtain ⟨e, he, rfl⟩ := List.mem_map.1 hk
          exact List.mem_map.2 ⟨e, (List.take_subset_take_left _ (Nat.sub_le_sub_right hn _)) he, rfl⟩
        · rw [if_neg hfr] at hk; simp at hk

/-! ### The index -/

theorem mem_rowsLoopAt (now : Nat → Store σ) (views : List Bytes) (m : AMap Nat (List Nat)) (i : Nat) (r : Option Bm) (u : Nat) :
    u ∈ (rowsLoopAt now views i m r).getD [] ↔
      (∀ e ∈ m.zipIdx i, e.1.1 ∈ (now e.2).idx.opened) ∧ (∀ b, r = some b → u ∈ b) ∧
      (r.isSome ∨ ∃ e ∈ m.zipIdx i, Sh.shardRows (now e.2).idx.disk e.1.1 views e.1.2 ≠ []) ∧
      ∀ e ∈ m.zipIdx i, Sh.shardRows (now e.2).idx.disk e.1.1 views e.1.2 ≠ [] → u ∈ Sh.shardRows (now e.2).idx.disk e.1.1 views e.1.2 := by
  induction m generalizing r i with
  | nil => cases r <;> simp [rowsLoopAt]
  | cons e m ih =>
    obtain ⟨k, f⟩ := e
    unfold rowsLoopAt
    simp only [List.zipIdx_cons]
    by_cases hk : k ∈ (now i).idx.opened
    · simp only [hk, not_true_eq_false, if_false]
      by_cases hb : Sh.shardRows (now i).idx.disk k views f = []
      · simp only [hb, if_true]
        rw [ih]; simp [hk, hb]
      · simp only [hb, if_false]
        cases r with
        | none =>
          simp only []
          rw [ih]
          simp [hk, hb]
        | some r0 =>
          simp only []
          split
          · rename_i h
            simp only [Option.getD_some, List.not_mem_nil, false_iff, List.forall_mem_cons, Option.some.injEq, forall_eq',
              Option.isSome_some, true_or, true_and, hb, not_false_eq_true, ne_eq, forall_const, not_and]
            intro _ hu hu'
            exact absurd (Bm.mem_and.2 ⟨hu, hu'⟩) (by simp [h.1])
          · rw [ih]
            simp only [List.forall_mem_cons, hk, true_and, Option.some.injEq, forall_eq', Option.isSome_some, true_or, hb,
              not_false_eq_true, ne_eq, forall_const, Bm.mem_and]
            tauto
    · simp only [hk, not_false_eq_true, if_true]
      simp only [List.forall_mem_cons, hk, false_and, iff_false]
      cases r <;> simp

theorem rowsLoopAt_ok (now : Nat → Store σ) (views : List Bytes) (m : AMap Nat (List Nat)) (i : Nat) (r : Option Bm) (hr : Bm.Ok (r.getD [])) :
    Bm.Ok ((rowsLoopAt now views i m r).getD []) := by
  induction m generalizing r i with
  | nil => exact hr
  | cons e m ih =>
    obtain ⟨k, f⟩ := e
    unfold rowsLoopAt
    split
    · cases r <;> exact Bm.nil_ok
    · simp only []
      split
      · exact ih _ _ hr
      · cases r with
        | none => exact ih _ _ Sh.shardRows_ok
        | some r0 =>
          simp only []
          split
          · exact Bm.nil_ok
          · exact ih _ _ (Bm.and_ok hr)

/-- What a shard finds. -/
theorem Hist.hit {s : Store σ} {recs : List Rec} {so : List Sh.Op} (h : Hist D s [] [] recs so) (hi : Increasing (recs.flatMap Rec.offered))
    {views : List Bytes} {sc : Scan} {cols : Bm} (h3 : ∀ n, n ∈ cols ↔ ∃ l ∈ sc.asked, D.look s.ctx.st l.encode = some n)
    {k : Nat} (hk : ∃ n ∈ cols, n / shardWidth = k) (u : Nat) :
    u ∈ Sh.shardRows s.idx.disk k views (cols.filter fun c => decide (c / shardWidth = k)) ↔
      ∃ o, o.sample.id = u ∧ HitIn D s.ctx.st (recs.map Rec.landed) views sc k o := by
  obtain ⟨n0, hn0, rfl⟩ := hk
  rw [h.idx', Sh.mem_shardRows_run so views cols hn0]
  constructor
  · rintro ⟨v, hv, hst⟩
    obtain ⟨c, hcm, hk, o, ho, hid, hiv, -⟩ := (h.stored_iff v u n0).1 (hst n0 hn0 rfl)
    refine ⟨o, hid, ?_, ⟨v, hv, hiv⟩, ⟨c.landed, List.mem_map.2 ⟨c, hcm, rfl⟩, ho, hk⟩, fun l hl n hn hnk => ?_⟩
    · rw [allSamples_landed]; exact List.mem_flatMap.2 ⟨c, hcm, ho⟩
    · obtain ⟨c', hcm', -, o', ho', hid', -, l', hl', hln⟩ := (h.stored_iff v u n).1 (hst n ((h3 n).2 ⟨l, hl, hn⟩) hnk)
      have : o' = o := unique hi (List.mem_flatMap.2 ⟨c', hcm', ho'⟩) (List.mem_flatMap.2 ⟨c, hcm, ho⟩) (hid'.trans hid.symm)
      subst this
      exact ⟨l', hl', hln⟩
  · rintro ⟨o, rfl, ho, ⟨v, hv, hiv⟩, ⟨f, hf, hof, hk⟩, hlab⟩
    obtain ⟨c, hcm, rfl⟩ := List.mem_map.1 hf
    refine ⟨v, hv, fun n hn hnk => ?_⟩
    obtain ⟨l, hl, hln⟩ := (h3 n).1 hn
    obtain ⟨l', hl', he⟩ := hlab l hl n hln hnk
    exact (h.stored_iff v _ n).2 ⟨c, hcm, by rw [hnk]; exact hk, o, hof, rfl, hiv, l', hl', he⟩

/-- The transaction that reads shard `k`. -/
theorem order_exists (m : AMap Nat (List Nat)) (hm : m.Ok) (i : Nat) : ∃ sh : Nat → Nat, ∀ e ∈ m.zipIdx i, sh e.1.1 = e.2 := by
  induction m generalizing i with
  | nil => exact ⟨fun _ => 0, by simp⟩
  | cons a m ih =>
    unfold AMap.Ok at hm
    rw [List.map_cons, List.nodup_cons] at hm
    obtain ⟨sh, h⟩ := ih hm.2 (i + 1)
    refine ⟨fun k => if k = a.1 then i else sh k, fun e he => ?_⟩
    rw [List.zipIdx_cons, List.mem_cons] at he
    rcases he with rfl | he
    · simp
    · have : e.1.1 ≠ a.1 := fun h => hm.1 (by
        rw [← h]; exact List.mem_map.2 ⟨e.1, List.fst_mem_of_mem_zipIdx he, rfl⟩)
      simp only [if_neg this]
      exact h e he

/-! ### The data frame -/

theorem same_samples {A B : List Offered} (ha : Increasing A) (hb : Increasing B) (h : ∀ x, (∃ o ∈ A, o.sample = x) ↔ ∃ o ∈ B, o.sample = x) :
    A.map (·.sample) = B.map (·.sample) := by
  have key : ∀ (X Y : List Sample), (X.Pairwise fun a b => a.id < b.id) → (Y.Pairwise fun a b => a.id < b.id) → (∀ x, x ∈ X ↔ x ∈ Y) → X = Y := by
    intro X
    induction X with
    | nil =>
      intro Y _ _ h
      cases Y with
      | nil => rfl
      | cons y Y => exact absurd ((h y).2 List.mem_cons_self) (by simp)
    | cons x X ih =>
      intro Y h1 h2 h
      cases Y with
      | nil => exact absurd ((h x).1 List.mem_cons_self) (by simp)
      | cons y Y =>
        rw [List.pairwise_cons] at h1 h2
        have e : x = y := by
          rcases List.mem_cons.1 ((h x).1 List.mem_cons_self) with e | hx
          · exact e
          · rcases List.mem_cons.1 ((h y).2 List.mem_cons_self) with e | hy
            · exact e.symm
            · have := h1.1 y hy
              have := h2.1 x hx
              omega
        subst e
        rw [ih Y h1.2 h2.2 fun z => ?_]
        have := h z
        simp only [List.mem_cons] at this
        constructor
        · intro hz
          rcases this.1 (.inr hz) with rfl | hz'
          · exact absurd (h1.1 z hz) (by omega)
          · exact hz'
        · intro hz
          rcases this.2 (.inr hz) with rfl | hz'
          · exact absurd (h2.1 z hz) (by omega)
          · exact hz'
  refine key _ _ (List.pairwise_map.2 ha) (List.pairwise_map.2 hb) fun x => ?_
  rw [List.mem_map, List.mem_map]; exact h x

theorem rowAt_sample {kind : Int} {o o' : Offered} (h : o.sample = o'.sample) (bs : List (List Offered)) : rowAt kind o bs = rowAt kind o' bs := by
  cases bs with
  | nil => rfl
  | cons b rest => unfold rowAt; rw [h]

open Classical in
theorem filedAt_samples {L : List Landed} {kind : Int} {v : Bytes} {A B : List Offered} (h : A.map (·.sample) = B.map (·.sample)) :
    (filedAt L kind v A).map (·.sample) = (filedAt L kind v B).map (·.sample) := by
  have key : ∀ X : List Offered, (filedAt L kind v X).map (·.sample) = (X.map (·.sample)).filter fun x =>
      decide ((∃ f ∈ L, (∃ o' ∈ f.samples, o'.sample = x) ∧ v ∈ f.views) ∧ Offered.InView ⟨0, x, true⟩ v ∧ x.data.signal = some kind) := by
    intro X
    rw [List.filter_map]
    rfl
  rw [key, key, h]

theorem filterMap_samples {kind : Int} {bs : List (List Offered)} {A B : List Offered} (h : A.map (·.sample) = B.map (·.sample)) :
    A.filterMap (fun o => rowAt kind o bs) = B.filterMap (fun o => rowAt kind o bs) ∧
    ((∀ o ∈ A, (rowAt kind o bs).isSome) ↔ ∀ o ∈ B, (rowAt kind o bs).isSome) := by
  have k1 : ∀ X : List Offered, X.filterMap (fun o => rowAt kind o bs) = (X.map (·.sample)).filterMap fun x => rowAt kind ⟨0, x, true⟩ bs := by
    intro X
    rw [List.filterMap_map]
    exact congrArg (fun f => List.filterMap f X) (funext fun o => rowAt_sample rfl bs)
  have k2 : ∀ X : List Offered, (∀ o ∈ X, (rowAt kind o bs).isSome) ↔ ∀ x ∈ X.map (·.sample), (rowAt kind ⟨0, x, true⟩ bs).isSome := by
    intro X
    simp only [List.mem_map, forall_exists_index, and_imp, forall_apply_eq_imp_iff₂]
    exact forall_congr' fun o => imp_congr_right fun _ => by rw [show rowAt kind o bs = rowAt kind ⟨0, o.sample, true⟩ bs from rowAt_sample rfl bs]
  exact ⟨by rw [k1, k1, h], by rw [k2, k2, h]⟩

open Classical in
/-- Reading one view. -/
theorem Hist.readView_at {s : Store σ} {recs : List Rec} {so : List Sh.Op} (h : Hist D s [] [] recs so) (hi : Increasing (recs.flatMap Rec.offered))
    {fault : Bytes → Bool} (hf : ∀ v, fault v = false) (v : Bytes) (kind : Int) {W W0 : List Offered}
    (hW : W0.Sublist (recs.flatMap Rec.offered)) (hs : W.map (·.sample) = W0.map (·.sample)) :
    (∀ o ∈ filedAt (recs.map Rec.landed) kind v W, (rowAt kind o (batchesIn (recs.map Rec.landed) v)).isSome) ∧
      (∃ l, Df.readView s.frame fault kind (W.map (·.sample.id)) v = .ok l ∧
        l.map (·.2) = (filedAt (recs.map Rec.landed) kind v W).filterMap fun o => rowAt kind o (batchesIn (recs.map Rec.landed) v)) ∨
    ¬ (∀ o ∈ filedAt (recs.map Rec.landed) kind v W, (rowAt kind o (batchesIn (recs.map Rec.landed) v)).isSome) ∧
      Df.readView s.frame fault kind (W.map (·.sample.id)) v = .outOfRange := by
  have e1 : filedIn (recs.map Rec.landed) kind v W0 = filedAt (recs.map Rec.landed) kind v W0 := by
    unfold filedIn filedAt
    refine List.filter_congr fun o ho => ?_
    rw [decide_eq_decide]
    refine and_congr_left fun _ => exists_congr fun f => and_congr_right fun hf => and_congr_left fun _ => ⟨fun h => ⟨o, h, rfl⟩, ?_⟩
    rintro ⟨o', ho', e⟩
    have hm : o' ∈ recs.flatMap Rec.offered := by
      rw [← allSamples_landed]; exact List.mem_flatMap.2 ⟨f, hf, ho'⟩
    have : o' = o := unique hi hm (hW.subset ho) (by rw [e])
    rw [← this]; exact ho'
  obtain ⟨e2, e3⟩ := filterMap_samples (kind := kind) (bs := batchesIn (recs.map Rec.landed) v)
    (filedAt_samples (L := recs.map Rec.landed) (kind := kind) (v := v) hs)
  have e4 : W.map (·.sample.id) = W0.map (·.sample.id) := by
    have := congrArg (List.map Sample.id) hs
    rwa [List.map_map, List.map_map] at this
  rw [e2, e3, e4, ← e1]
  exact h.readView_scan hi hf v kind W0 hW

open Classical in
/-- Reading all views. -/
theorem unmarshalAt_scan {now : Nat → Store σ} {L : Nat → List Landed} {fault : Bytes → Bool} {kind : Int} {W : List Offered} (views : List Bytes) (i : Nat)
    (h : ∀ j, i ≤ j → ∀ v,
      (∀ o ∈ filedAt (L j) kind v W, (rowAt kind o (batchesIn (L j) v)).isSome) ∧
        (∃ l, Df.readView (now j).frame fault kind (W.map (·.sample.id)) v = .ok l ∧
          l.map (·.2) = (filedAt (L j) kind v W).filterMap fun o => rowAt kind o (batchesIn (L j) v)) ∨
      ¬ (∀ o ∈ filedAt (L j) kind v W, (rowAt kind o (batchesIn (L j) v)).isSome) ∧
        Df.readView (now j).frame fault kind (W.map (·.sample.id)) v = .outOfRange) :
    (∀ vp ∈ views.zipIdx i, ∀ o ∈ filedAt (L vp.2) kind vp.1 W, (rowAt kind o (batchesIn (L vp.2) vp.1)).isSome) ∧
      (∃ l, unmarshalAt now fault kind (W.map (·.sample.id)) i views = .ok l ∧
        l.map (·.2) = (views.zipIdx i).flatMap fun vp => (filedAt (L vp.2) kind vp.1 W).filterMap fun o => rowAt kind o (batchesIn (L vp.2) vp.1)) ∨
    ¬ (∀ vp ∈ views.zipIdx i, ∀ o ∈ filedAt (L vp.2) kind vp.1 W, (rowAt kind o (batchesIn (L vp.2) vp.1)).isSome) ∧
      unmarshalAt now fault kind (W.map (·.sample.id)) i views = .outOfRange := by
  induction views generalizing i with
  | nil => exact .inl ⟨by simp, [], rfl, rfl⟩
  | cons v vs ih =>
    rw [unmarshalAt, List.zipIdx_cons]
    rcases h i (Nat.le_refl _) v with ⟨h1, l, h2, h3⟩ | ⟨h1, h2⟩
    · rw [h2]
      rcases ih (i + 1) (fun j hj v => h j (by omega) v) with ⟨i1, l', i2, i3⟩ | ⟨i1, i2⟩
      · refine .inl ⟨fun w hw => ?_, l ++ l', by rw [i2], ?_⟩
        · rcases List.mem_cons.1 hw with rfl | hw
          · exact h1
          · exact i1 w hw
        · rw [List.map_append, h3, i3, List.flatMap_cons]
      · exact .inr ⟨fun hall => i1 fun w hw => hall w (List.mem_cons_of_mem _ hw), by rw [i2]⟩
    · exact .inr ⟨fun hall => h1 (hall _ List.mem_cons_self), by rw [h2]⟩

end Verif.St
