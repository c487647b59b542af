import Verif.Lemmas.Store3
import Verif.Spec.During
/-!
# Facts about scanning while samples are flushed
-/
namespace Verif.St
open Tm Tf
open Bt (Frags shardWidth)
variable {σ : Type} {D : Dict σ} {st : σ}

/-! ### The samples of a moment -/

theorem offered_strip (D : Dict σ) (s : Store σ) (r : Int) (ops : List (Op σ)) :
    (offered D s r ops).map (fun o => (o.res, o.sample)) = (plain r ops).flatMap fun p => (tag true p.1 p.2.samples).map fun o => (o.res, o.sample) := by
  have ht : ∀ ok r ss, (tag ok r ss).map (fun o => (o.res, o.sample)) = (tag true r ss).map fun o => (o.res, o.sample) := by
    intro ok r ss
    induction ss generalizing r with
    | nil => rfl
    | cons x xs ih => simp only [tag, List.map_cons, ih]
  induction ops generalizing s r with
  | nil => rfl
  | cons op ops ih =>
    cases op with
    | flush fl => simp only [offered, plain, List.map_append, List.flatMap_cons, ih, ht (_ == _)]
    | restart st => simp only [offered, plain, ih]

/-- Flushes with the resources in force before each. -/
def plainF : Int → List Flush → List (Int × Flush)
  | _, [] => []
  | r, fl :: fls => (r, fl) :: plainF (fl.samples.foldl (fun r x => x.data.signal.getD r) r) fls

def endRes : Int → List (Op σ) → Int
  | r, [] => r
  | r, .flush fl :: ops => endRes (fl.samples.foldl (fun r x => x.data.signal.getD r) r) ops
  | _, .restart _ :: ops => endRes 0 ops

theorem plain_append (r : Int) (ops : List (Op σ)) (fls : List Flush) :
    plain r (ops ++ fls.map .flush) = plain r ops ++ plainF (endRes r ops) fls := by
  induction ops generalizing r with
  | nil =>
    rw [List.nil_append]
    show plain r _ = [] ++ plainF r fls
    rw [List.nil_append]
    induction fls generalizing r with
    | nil => rfl
    | cons fl fls ih => rw [List.map_cons, plain, plainF, ih]
  | cons op ops ih =>
    cases op with
    | flush fl => rw [List.cons_append, plain, plain, List.cons_append, ih]; rfl
    | restart st => rw [List.cons_append, plain, plain, ih]; rfl

theorem offered_append (D : Dict σ) (s : Store σ) (r : Int) (ops ops' : List (Op σ)) :
    ∃ rest, offered D s r (ops ++ ops') = offered D s r ops ++ rest := by
  induction ops generalizing s r with
  | nil => exact ⟨_, rfl⟩
  | cons op ops ih =>
    cases op with
    | flush fl =>
      obtain ⟨rest, h⟩ := ih (saveSamples D s fl).1 (fl.samples.foldl (fun r x => x.data.signal.getD r) r)
      exact ⟨rest, by rw [List.cons_append, offered, offered, h, List.append_assoc]⟩
    | restart st =>
      obtain ⟨rest, h⟩ := ih (step D s (.restart st)) 0
      exact ⟨rest, by rw [List.cons_append, offered, offered, h]⟩

/-- `F` is a beginning of `G`, as far as the samples go. -/
def Starts : List Flush → List Flush → Prop
  | [], _ => True
  | _ :: _, [] => False
  | f :: fs, g :: gs => f.samples = g.samples ∧ Starts fs gs

theorem Starts.take (fls : List Flush) (n : Nat) : Starts (fls.take n) fls := by
  induction fls generalizing n with
  | nil => simp [Starts]
  | cons f fs ih =>
    cases n with
    | zero => trivial
    | succ n => exact ⟨rfl, ih n⟩

theorem Starts.take_snoc {fls : List Flush} {n : Nat} {fl : Flush} (h : fls[n]? = some fl) (c : Nat) :
    Starts (fls.take n ++ [{ fl with commits := c }]) fls := by
  induction fls generalizing n with
  | nil => simp at h
  | cons f fs ih =>
    cases n with
    | zero =>
      rw [List.getElem?_cons_zero, Option.some.injEq] at h
      subst h; exact ⟨rfl, trivial⟩
    | succ n => exact ⟨rfl, ih (by simpa using h)⟩

theorem Starts.plainF {F G : List Flush} (h : Starts F G) (r : Int) :
    ∃ rest, (plainF r G).flatMap (fun p => (tag true p.1 p.2.samples).map fun o => (o.res, o.sample)) =
      (plainF r F).flatMap (fun p => (tag true p.1 p.2.samples).map fun o => (o.res, o.sample)) ++ rest := by
  induction F generalizing G r with
  | nil => exact ⟨_, rfl⟩
  | cons f fs ih =>
    cases G with
    | nil => exact h.elim
    | cons g gs =>
      obtain ⟨h1, h2⟩ := h
      obtain ⟨rest, e⟩ := ih h2 (f.samples.foldl (fun r x => x.data.signal.getD r) r)
      refine ⟨rest, ?_⟩
      rw [St.plainF, St.plainF, List.flatMap_cons, List.flatMap_cons, ← h1, e, List.append_assoc]

/-- The samples of the history up to `F` are the first ones of the history up to `G`. -/
theorem Starts.offered {F G : List Flush} (h : Starts F G) (D : Dict σ) (s : Store σ) (r : Int) (ops : List (Op σ)) :
    ∃ rest, (offered D s r (ops ++ G.map .flush)).map (fun o => (o.res, o.sample)) =
      (offered D s r (ops ++ F.map .flush)).map (fun o => (o.res, o.sample)) ++ rest := by
  rw [offered_strip, offered_strip, plain_append, plain_append, List.flatMap_append, List.flatMap_append]
  obtain ⟨rest, e⟩ := h.plainF (endRes r ops)
  exact ⟨rest, by rw [e, List.append_assoc]⟩

/-! ### The dictionary and the shards of a moment -/

theorem saveSamples_ctx (D : Dict σ) (s : Store σ) (fl : Flush) (c : Nat) :
    (saveSamples D s { fl with commits := c }).1.ctx = (saveSamples D s fl).1.ctx ∧
    ((saveSamples D s { fl with commits := c }).2 = .exit ↔ (saveSamples D s fl).2 = .exit) := by
  unfold saveSamples
  simp only
  cases processSamples D.tr fl.samples s.ctx with
  | none => exact ⟨rfl, Iff.rfl⟩
  | some x =>
    obtain ⟨ctx, ss, o⟩ := x
    cases o with
    | none => exact ⟨rfl, Iff.rfl⟩
    | some f =>
      simp only
      cases Df.groupViews ss [] with
      | none => exact ⟨rfl, Iff.rfl⟩
      | some m =>
        simp only
        cases (Df.appendViews s.frame (fl.viewOrder m) c).2 <;> cases (Df.appendViews s.frame (fl.viewOrder m) fl.commits).2 <;>
          cases (indexLoop fl.bitsOrder (fl.shardOrder f) (c - (fl.viewOrder m).length) s.idx).2 <;>
          cases (indexLoop fl.bitsOrder (fl.shardOrder f) (fl.commits - (fl.viewOrder m).length) s.idx).2 <;>
          simp

theorem fair_commits {fl : Flush} (h : fl.Fair) (c : Nat) : Flush.Fair { fl with commits := c } :=
  ⟨h.views, h.shards, h.bits, h.times, h.ids⟩

theorem valid_append {D : Dict σ} {s : Store σ} {ops ops' : List (Op σ)} :
    Valid D s (ops ++ ops') ↔ Valid D s ops ∧ Valid D (ops.foldl (step D) s) ops' := by
  induction ops generalizing s with
  | nil => exact ⟨fun h => ⟨trivial, h⟩, fun h => h.2⟩
  | cons op ops ih =>
    cases op with
    | flush fl =>
      rw [List.cons_append, List.foldl_cons]
      simp only [Valid, ih]
      constructor
      · rintro ⟨a, b, c, d⟩; exact ⟨⟨a, b, c⟩, d⟩
      · rintro ⟨⟨a, b, c⟩, d⟩; exact ⟨a, b, c, d⟩
    | restart st =>
      rw [List.cons_append, List.foldl_cons]
      simp only [Valid, ih]
      constructor
      · rintro ⟨a, b, c, d⟩; exact ⟨⟨a, b, c⟩, d⟩
      · rintro ⟨⟨a, b, c⟩, d⟩; exact ⟨a, b, c, d⟩

theorem flushed_eq (D : Dict σ) (s : Store σ) (fls : List Flush) : flushed D s fls = (fls.map Op.flush).foldl (step D) s := by
  unfold flushed
  rw [List.foldl_map]
  rfl

theorem flushed_append (D : Dict σ) (s : Store σ) (a b : List Flush) : flushed D s (a ++ b) = flushed D (flushed D s a) b := by
  unfold flushed; rw [List.foldl_append]

theorem Grows.refl (D : Dict σ) (a : σ) : Grows D a a := fun _ _ h => h

theorem Grows.trans {D : Dict σ} {a b c : σ} (h : Grows D a b) (h' : Grows D b c) : Grows D a c := fun x n e => h' x n (h x n e)

/-- A store a history can lead to. -/
structure Sane (D : Dict σ) (s : Store σ) : Prop where
  good : D.Good s.ctx.st
  batch : s.ctx.batch = Bt.Batch.new

theorem Sane.save {s : Store σ} (hD : D.Lawful) (h : Sane D s) {fl : Flush} (hf : fl.Fair) (hx : (saveSamples D s fl).2 ≠ .exit) :
    Sane D (saveSamples D s fl).1 ∧ Grows D s.ctx.st (saveSamples D s fl).1.ctx.st ∧
      ∀ k, k ∈ s.idx.opened → k ∈ (saveSamples D s fl).1.idx.opened := by
  obtain ⟨c, ctx, -, -, -, he, hg, hk, hb, -⟩ := saveSamples_rec hD h.good h.batch hf hx
  rw [he]
  refine ⟨⟨hg, hb⟩, hk, fun k hk => ?_⟩
  show k ∈ (c.sops.foldl Sh.step s.idx).opened
  have : ∀ op ∈ c.sops, op ≠ .restart := by
    intro op hop
    unfold Rec.sops at hop
    split at hop
    · obtain ⟨_, _, _, rfl⟩ := mem_idxOps hop; simp
    · simp at hop
  generalize c.sops = l at this
  generalize s.idx = x at hk
  induction l generalizing x with
  | nil => exact hk
  | cons op l ih =>
    rw [List.foldl_cons]
    refine ih (fun y hy => this y (List.mem_cons_of_mem _ hy)) _ ?_
    have hget : ∀ k', k ∈ (x.get k').opened := fun k' => by
      unfold Sh.Store.get; split
      · exact hk
      · exact List.mem_cons_of_mem _ hk
    cases op with
    | restart => exact absurd rfl (this _ List.mem_cons_self)
    | view k' => exact hget k'
    | update k' ws ok =>
      simp only [Sh.step, Sh.Store.update]
      split <;> exact hget k'

theorem Sane.flushed {s : Store σ} (hD : D.Lawful) (h : Sane D s) {fls : List Flush} (hv : Valid D s (fls.map .flush)) :
    Sane D (flushed D s fls) ∧ Grows D s.ctx.st (flushed D s fls).ctx.st ∧
      ∀ k, k ∈ s.idx.opened → k ∈ (St.flushed D s fls).idx.opened := by
  induction fls generalizing s with
  | nil => exact ⟨h, Grows.refl _ _, fun _ h => h⟩
  | cons fl fls ih =>
    obtain ⟨h1, h2, h3⟩ := hv
    obtain ⟨a, b, c⟩ := h.save hD h1 h2
    obtain ⟨a', b', c'⟩ := ih a h3
    exact ⟨a', b.trans b', fun k hk => c' k (c k hk)⟩

theorem Moment.starts (fls : List Flush) (m : Moment σ) : Starts (m.done fls) fls := by
  unfold Moment.done
  split
  · rename_i h _; exact Starts.take_snoc h _
  · exact Starts.take _ _

section valid
variable {s : Store σ} {fls : List Flush}

theorem valid_at (hv : Valid D s (fls.map .flush)) {j : Nat} {fl : Flush} (h : fls[j]? = some fl) :
    Valid D s ((fls.take j).map .flush) ∧ fl.Fair ∧ (saveSamples D (flushed D s (fls.take j)) fl).2 ≠ .exit ∧
      Valid D (saveSamples D (flushed D s (fls.take j)) fl).1 ((fls.drop (j + 1)).map .flush) := by
  have hl : j < fls.length := (List.getElem?_eq_some_iff.1 h).1
  have e : fls = fls.take j ++ fl :: fls.drop (j + 1) := by
    have := (List.take_append_drop j fls).symm
    rw [List.drop_eq_getElem_cons hl, (List.getElem?_eq_some_iff.1 h).2] at this
    exact this
  rw [e, List.map_append, List.map_cons, valid_append] at hv
  obtain ⟨h1, h2, h3, h4⟩ := hv
  rw [flushed_eq]
  exact ⟨h1, h2, h3, h4⟩

theorem valid_take (hv : Valid D s (fls.map .flush)) (j : Nat) : Valid D s ((fls.take j).map .flush) := by
  have e := hv
  rw [← List.take_append_drop j fls, List.map_append, valid_append] at e
  exact e.1

/-- Between the dictionary of before flush `j` and that of after it. -/
theorem Moment.between (hD : D.Lawful) (hs : Sane D s) (hv : Valid D s (fls.map .flush)) {m : Moment σ} (hm : m.Possible D s fls) :
    Grows D (flushed D s (fls.take m.j)).ctx.st (m.store D s fls).ctx.st ∧
    Grows D (m.store D s fls).ctx.st (flushed D s (fls.take (m.j + 1))).ctx.st ∧
    (∀ k, k ∈ s.idx.opened → k ∈ (m.store D s fls).idx.opened) ∧ D.Good (m.store D s fls).ctx.st := by
  obtain ⟨hs', -, ho⟩ := hs.flushed hD (valid_take hv m.j)
  unfold Moment.Possible at hm
  unfold Moment.store
  simp only
  cases h : fls[m.j]? with
  | none =>
    simp only
    have hl : fls.length ≤ m.j := List.getElem?_eq_none_iff.1 h
    rw [List.take_of_length_le hl, List.take_of_length_le (by omega)]
    rw [List.take_of_length_le hl] at ho hs'
    exact ⟨Grows.refl _ _, Grows.refl _ _, ho, hs'.good⟩
  | some fl =>
    obtain ⟨h1, h2, h3, -⟩ := valid_at hv h
    have e : flushed D s (fls.take (m.j + 1)) = (saveSamples D (flushed D s (fls.take m.j)) fl).1 := by
      rw [List.take_add_one, h]
      exact flushed_append D s _ [fl]
    rw [e]
    rw [h] at hm
    cases ht : m.tick with
    | translating st' =>
      rw [ht] at hm
      exact ⟨hm.2.1, hm.2.2, ho, hm.1⟩
    | committed c =>
      simp only
      obtain ⟨e1, e2⟩ := saveSamples_ctx D (flushed D s (fls.take m.j)) fl (min c fl.commits)
      obtain ⟨a, b, d⟩ := hs'.save hD (fair_commits h2 (min c fl.commits)) (fun x => h3 (e2.1 x))
      rw [e1]
      rw [e1] at b
      exact ⟨b, Grows.refl _ _, fun k hk => d k (ho k hk), by have := a.good; rwa [e1] at this⟩

theorem flushed_grows (hD : D.Lawful) (hs : Sane D s) (hv : Valid D s (fls.map .flush)) {i j : Nat} (h : i ≤ j) :
    Grows D (flushed D s (fls.take i)).ctx.st (flushed D s (fls.take j)).ctx.st := by
  have e : fls.take j = fls.take i ++ (fls.drop i).take (j - i) := by
    have := List.take_add (l := fls) (i := i) (j := j - i)
    rwa [show i + (j - i) = j by omega] at this
  have hv' := valid_take hv j
  rw [e, List.map_append, valid_append] at hv'
  rw [e, flushed_append]
  obtain ⟨a, -, -⟩ := hs.flushed hD (valid_take hv i)
  rw [← flushed_eq] at hv'
  exact (a.flushed hD hv'.2).2.1

/-- Entries of the dictionary stay. -/
theorem Moment.grows (hD : D.Lawful) (hs : Sane D s) (hv : Valid D s (fls.map .flush)) {a b : Moment σ} (ha : a.Possible D s fls)
    (hb : b.Possible D s fls) (hab : a.Le D b) : Grows D (a.store D s fls).ctx.st (b.store D s fls).ctx.st := by
  obtain ⟨a1, a2, -, -⟩ := Moment.between hD hs hv ha
  obtain ⟨b1, b2, -, -⟩ := Moment.between hD hs hv hb
  rcases hab with h | ⟨h, h'⟩
  · exact a2.trans ((flushed_grows hD hs hv h).trans b1)
  · unfold Moment.store at a2 b1 ⊢
    rw [← h] at b1 ⊢
    simp only at a2 b1 ⊢
    cases e : fls[a.j]? with
    | none => exact Grows.refl _ _
    | some fl =>
      have e' : flushed D s (fls.take (a.j + 1)) = (saveSamples D (flushed D s (fls.take a.j)) fl).1 := by
        rw [List.take_add_one, e]
        exact flushed_append D s _ [fl]
      rw [e, e'] at a2
      simp only at a2 ⊢
      cases hta : a.tick with
      | translating st1 =>
        cases htb : b.tick with
        | translating st2 => rw [hta, htb] at h'; exact h'
        | committed c =>
          rw [hta] at a2
          simp only at a2 ⊢
          rw [(saveSamples_ctx D _ fl _).1]; exact a2
      | committed c =>
        cases htb : b.tick with
        | translating st2 => rw [hta, htb] at h'; exact h'.elim
        | committed c' =>
          simp only
          rw [(saveSamples_ctx D _ fl (min c fl.commits)).1, (saveSamples_ctx D _ fl (min c' fl.commits)).1]
          exact Grows.refl _ _

theorem Moment.grows_end (hD : D.Lawful) (hs : Sane D s) (hv : Valid D s (fls.map .flush)) {a : Moment σ} (ha : a.Possible D s fls) :
    Grows D (a.store D s fls).ctx.st (flushed D s fls).ctx.st := by
  obtain ⟨-, a2, -, -⟩ := Moment.between hD hs hv ha
  refine a2.trans ?_
  by_cases h : a.j + 1 ≤ fls.length
  · have := flushed_grows hD hs hv h
    rwa [List.take_of_length_le (Nat.le_refl fls.length)] at this
  · rw [List.take_of_length_le (show fls.length ≤ a.j + 1 by omega)]; exact Grows.refl _ _

end valid

/-! ### A moment as a history -/

/-- The history behind a moment. -/
structure At (D : Dict σ) (st : σ) (ops : List (Op σ)) (fls : List Flush) (m : Moment σ) (recs : List Rec) (so : List Sh.Op) : Prop where
  hist : Hist D (m.store D (run D st ops) fls) [] [] recs so
  samples : recs.flatMap Rec.offered = samplesOf D st (ops ++ (m.done fls).map .flush)
  plain : recs.map (fun c => (c.r, c.fl)) = plain 0 (ops ++ (m.done fls).map .flush)

theorem Hist.redict {s : Store σ} {recs : List Rec} {so : List Sh.Op} (h : Hist D s [] [] recs so) {st' : σ} (hg : D.Good st')
    (hk : Grows D s.ctx.st st') : Hist D { s with ctx := { s.ctx with st := st' } } [] [] recs so :=
  ⟨hg, h.frame, h.idx, fun c hc => (h.oks c hc).mono hk, h.wr, h.all⟩

theorem sane_run (hD : D.Lawful) {ops : List (Op σ)} {s : Store σ} (hs : Sane D s) (hv : Valid D s ops) :
    Sane D (ops.foldl (step D) s) := by
  induction ops generalizing s with
  | nil => exact hs
  | cons op ops ih =>
    cases op with
    | flush fl => exact ih (hs.save hD hv.1 hv.2.1).1 hv.2.2
    | restart st' => exact ih ⟨hv.1, rfl⟩ hv.2.2

theorem moment_hist (hD : D.Lawful) (hg : D.Good st) {ops : List (Op σ)} {fls : List Flush}
    (hv : Valid D (Store.start st (fun _ => none) []) (ops ++ fls.map .flush)) {m : Moment σ} (hm : m.Possible D (run D st ops) fls) :
    ∃ recs so, At D st ops fls m recs so := by
  obtain ⟨v1, v2⟩ := valid_append.1 hv
  have v2 : Valid D (run D st ops) (fls.map .flush) := v2
  have key : ∀ F : List Flush, Valid D (run D st ops) (F.map .flush) → ∃ recs so,
      Hist D (flushed D (run D st ops) F) [] [] recs so ∧ recs.flatMap Rec.offered = samplesOf D st (ops ++ F.map .flush) ∧
      recs.map (fun c => (c.r, c.fl)) = St.plain 0 (ops ++ F.map .flush) := by
    intro F hF
    obtain ⟨recs, so, h1, h2, -, h4, -⟩ := hist hD (ops ++ F.map Op.flush) (Store.start st (fun _ => none) []) [] [] hg rfl rfl rfl
      ((valid_append (D := D) (s := Store.start st (fun _ => none) [])).2 ⟨v1, hF⟩)
    rw [List.foldl_append] at h1
    refine ⟨recs, so, ?_, h2.symm, h4⟩
    rw [flushed_eq]; exact h1
  unfold Moment.Possible at hm
  cases h : fls[m.j]? with
  | none =>
    obtain ⟨recs, so, a, b, c⟩ := key (fls.take m.j) (valid_take v2 _)
    refine ⟨recs, so, ⟨?_, ?_, ?_⟩⟩
    · unfold Moment.store; simp only [h]; exact a
    · unfold Moment.done; simp only [h]; exact b
    · unfold Moment.done; simp only [h]; exact c
  | some fl =>
    rw [h] at hm
    cases ht : m.tick with
    | translating st' =>
      rw [ht] at hm
      obtain ⟨recs, so, a, b, c⟩ := key (fls.take m.j) (valid_take v2 _)
      refine ⟨recs, so, ⟨?_, ?_, ?_⟩⟩
      · unfold Moment.store; simp only [h, ht]; exact a.redict hm.1 hm.2.1
      · unfold Moment.done; simp only [h, ht]; exact b
      · unfold Moment.done; simp only [h, ht]; exact c
    | committed c =>
      obtain ⟨h1, h2, h3, -⟩ := valid_at v2 h
      obtain ⟨recs, so, a, b, d⟩ := key (fls.take m.j ++ [{ fl with commits := min c fl.commits }]) (by
        rw [List.map_append, valid_append]
        refine ⟨h1, fair_commits h2 _, ?_, trivial⟩
        rw [← flushed_eq]
        exact fun x => h3 ((saveSamples_ctx D _ fl _).2.1 x))
      refine ⟨recs, so, ⟨?_, ?_, ?_⟩⟩
      · unfold Moment.store; simp only [h, ht]
        rw [flushed_append] at a
        exact a
      · unfold Moment.done; simp only [h, ht]; exact b
      · unfold Moment.done; simp only [h, ht]; exact d

/-! ### What is written stays written -/

/-- Whatever was flushed in `P` was flushed in `Q`, at least as far. -/
def Fwd (P Q : List (Int × Flush)) : Prop :=
  ∀ p ∈ P, ∃ q ∈ Q, q.1 = p.1 ∧ q.2.samples = p.2.samples ∧ p.2.commits ≤ q.2.commits

theorem Fwd.refl (P : List (Int × Flush)) : Fwd P P := fun p hp => ⟨p, hp, rfl, rfl, Nat.le_refl _⟩

theorem plainF_append (r : Int) (a b : List Flush) :
    plainF r (a ++ b) = plainF r a ++ plainF ((a.flatMap (·.samples)).foldl (fun r x => x.data.signal.getD r) r) b := by
  induction a generalizing r with
  | nil => rfl
  | cons f a ih => rw [List.cons_append, plainF, plainF, ih, List.flatMap_cons, List.foldl_append, List.cons_append]

theorem fwd_take {fls : List Flush} {i j : Nat} (h : i ≤ j) (r : Int) : Fwd (plainF r (fls.take i)) (plainF r (fls.take j)) := by
  have e : fls.take j = fls.take i ++ (fls.drop i).take (j - i) := by
    have := List.take_add (l := fls) (i := i) (j := j - i)
    rwa [show i + (j - i) = j by omega] at this
  rw [e, plainF_append]
  exact fun p hp => ⟨p, List.mem_append_left _ hp, rfl, rfl, Nat.le_refl _⟩

theorem Fwd.trans {P Q R : List (Int × Flush)} (h : Fwd P Q) (h' : Fwd Q R) : Fwd P R := fun p hp => by
  obtain ⟨q, hq, a, b, c⟩ := h p hp
  obtain ⟨x, hx, a', b', c'⟩ := h' q hq
  exact ⟨x, hx, a'.trans a, b'.trans b, Nat.le_trans c c'⟩

theorem fwd_snoc (fls : List Flush) (r : Int) {fl : Flush} {c c' : Nat} (h : c ≤ c') :
    Fwd (plainF r (fls ++ [{ fl with commits := c }])) (plainF r (fls ++ [{ fl with commits := c' }])) := by
  rw [plainF_append, plainF_append]
  intro p hp
  rcases List.mem_append.1 hp with hp | hp
  · exact ⟨p, List.mem_append_left _ hp, rfl, rfl, Nat.le_refl _⟩
  · simp only [plainF, List.mem_singleton] at hp
    subst hp
    refine ⟨(_, { fl with commits := c' }), List.mem_append_right _ ?_, rfl, rfl, h⟩
    simp only [plainF, List.mem_singleton]

theorem done_upper (fls : List Flush) (m : Moment σ) (r : Int) : Fwd (plainF r (m.done fls)) (plainF r (fls.take (m.j + 1))) := by
  unfold Moment.done
  split
  · rename_i fl c h _
    rw [List.take_add_one, h]
    exact fwd_snoc (fl := fl) (fls.take m.j) r (Nat.min_le_right c fl.commits)
  · exact fwd_take (by omega) r

theorem done_lower (fls : List Flush) (m : Moment σ) (r : Int) : Fwd (plainF r (fls.take m.j)) (plainF r (m.done fls)) := by
  unfold Moment.done
  split
  · rw [plainF_append]
    exact fun p hp => ⟨p, List.mem_append_left _ hp, rfl, rfl, Nat.le_refl _⟩
  · exact Fwd.refl _

theorem Moment.fwd (fls : List Flush) {a b : Moment σ} (h : a.Le D b) (r : Int) : Fwd (plainF r (a.done fls)) (plainF r (b.done fls)) := by
  rcases h with h | ⟨h, h'⟩
  · exact (done_upper fls a r).trans ((fwd_take h r).trans (done_lower fls b r))
  · cases e : fls[a.j]? with
    | none =>
      have e1 : a.done fls = fls.take a.j := by unfold Moment.done; simp only [e]
      have e2 : b.done fls = fls.take a.j := by unfold Moment.done; simp only [← h, e]
      rw [e1, e2]; exact Fwd.refl _
    | some fl =>
      cases hta : a.tick with
      | translating st1 =>
        have e1 : a.done fls = fls.take a.j := by unfold Moment.done; simp only [e, hta]
        rw [e1, h]; exact done_lower fls b r
      | committed c =>
        cases htb : b.tick with
        | translating st2 => rw [hta, htb] at h'; exact h'.elim
        | committed c' =>
          rw [hta, htb] at h'
          have e1 : a.done fls = fls.take a.j ++ [{ fl with commits := min c fl.commits }] := by unfold Moment.done; simp only [e, hta]
          have e2 : b.done fls = fls.take a.j ++ [{ fl with commits := min c' fl.commits }] := by
            unfold Moment.done; simp only [← h, e, htb]
          rw [e1, e2]
          have h' : c ≤ c' := h'
          exact fwd_snoc _ r (by omega)

/-- Samples that are in the data frame at one moment are there later. -/
theorem At.framed {ops : List (Op σ)} {fls : List Flush} {a b : Moment σ} {ra rb : List Rec} {sa sb : List Sh.Op}
    (ha : At D st ops fls a ra sa) (hb : At D st ops fls b rb sb) (h : a.Le D b) {c : Rec} (hc : c ∈ ra) (hf : c.framed = true)
    {o : Offered} (ho : o ∈ c.offered) : ∃ c' ∈ rb, c'.framed = true ∧ ∃ o' ∈ c'.offered, o'.res = o.res ∧ o'.sample = o.sample := by
  have hp : (c.r, c.fl) ∈ St.plain 0 (ops ++ (a.done fls).map .flush) := by
    rw [← ha.plain]; exact List.mem_map.2 ⟨c, hc, rfl⟩
  have : ∃ q ∈ St.plain 0 (ops ++ (b.done fls).map .flush), q.1 = c.r ∧ q.2.samples = c.fl.samples ∧ c.fl.commits ≤ q.2.commits := by
    rw [plain_append] at hp ⊢
    rcases List.mem_append.1 hp with hp | hp
    · exact ⟨_, List.mem_append_left _ hp, rfl, rfl, Nat.le_refl _⟩
    · obtain ⟨q, hq, x⟩ := Moment.fwd fls h _ _ hp
      exact ⟨q, List.mem_append_right _ hq, x⟩
  obtain ⟨q, hq, e1, e2, e3⟩ := this
  rw [← hb.plain] at hq
  obtain ⟨c', hc', rfl⟩ := List.mem_map.1 hq
  simp only at e1 e2 e3
  have hm : c'.m = c.m := by
    have g1 := (ha.hist.oks c hc).group
    have g2 := (hb.hist.oks c' hc').group
    unfold Rec.ss at g1 g2
    rw [e2, g1, Option.some.injEq] at g2
    exact g2.symm
  refine ⟨c', hc', ?_, ?_⟩
  · unfold Rec.framed at hf ⊢
    rw [hm]; exact decide_eq_true (Nat.le_trans (of_decide_eq_true hf) e3)
  · unfold Rec.offered at ho ⊢
    rw [e1, e2]
    generalize c.r = r at ho ⊢
    generalize c.fl.samples = ss at ho ⊢
    induction ss generalizing r with
    | nil => simp [tag] at ho
    | cons x xs ih =>
      rcases List.mem_cons.1 ho with rfl | ho
      · exact ⟨_, List.mem_cons_self, rfl, rfl⟩
      · obtain ⟨o', ho', e⟩ := ih _ ho
        exact ⟨o', List.mem_cons_of_mem _ ho', e⟩

end Verif.St
