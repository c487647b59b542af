import Verif.Spec.Store
import Verif.Lemmas.Frame
import Verif.Lemmas.Shards
import Verif.Props.Batch
/-!
# Facts about flushing and scanning
-/
namespace Verif.St
open Tm Tf
open Bt (Frags Entry shardWidth pos Owed Good makeFragments)
variable {σ : Type}

/-! ### Fragments as lists -/

/-- No shard and no view twice. -/
def FOk (f : Frags) : Prop := f.Ok ∧ ∀ e ∈ f, AMap.Ok e.2

theorem mem_set {κ ν : Type} [DecidableEq κ] {m : AMap κ ν} {k : κ} {v : ν} {e : κ × ν} (h : e ∈ m.set k v) :
    e = (k, v) ∨ e ∈ m := by
  induction m with
  | nil => simpa [AMap.set] using h
  | cons a r ih =>
    obtain ⟨x, y⟩ := a
    unfold AMap.set at h
    split at h
    · rcases List.mem_cons.1 h with h | h
      · exact .inl h
      · exact .inr (List.mem_cons_of_mem _ h)
    · rcases List.mem_cons.1 h with h | h
      · exact .inr (by rw [h]; simp)
      · rcases ih h with h | h
        · exact .inl h
        · exact .inr (List.mem_cons_of_mem _ h)

theorem FOk.directAdd {f : Frags} (h : FOk f) (k : Nat) (v : Bytes) (p : Nat) : FOk (f.directAdd k v p) := by
  unfold Frags.directAdd
  refine ⟨AMap.set_ok h.1 _ _, fun e he => ?_⟩
  rcases mem_set he with rfl | he
  · apply AMap.set_ok
    cases hg : f.get k with
    | none => simp [AMap.Ok]
    | some vs => exact h.2 _ (AMap.mem_of_get hg)
  · exact h.2 e he

theorem FOk.addCols {f : Frags} (h : FOk f) (id : Nat) (vs : List Bytes) (cols : List Nat) : FOk (Bt.addCols id vs cols f) := by
  unfold Bt.addCols
  induction cols generalizing f with
  | nil => exact h
  | cons c cs ih =>
    rw [List.foldl_cons]
    apply ih
    clear ih
    induction vs generalizing f with
    | nil => exact h
    | cons v vs ih => rw [List.foldl_cons]; exact ih (h.directAdd _ _ _)

theorem FOk.makeFragments {es : List Entry} {f : Frags} (h : FOk f) : FOk (makeFragments es f).1 := by
  induction es generalizing f with
  | nil => exact h
  | cons e es ih =>
    unfold Bt.makeFragments
    split
    · exact ih h
    · split
      · exact h
      · exact ih (h.addCols _ _ _)

theorem FOk.mem_bits {f : Frags} (h : FOk f) (k : Nat) (v : Bytes) (p : Nat) :
    p ∈ f.bits k v ↔ ∃ vs b, (k, vs) ∈ f ∧ (v, b) ∈ vs ∧ p ∈ b := by
  unfold Frags.bits
  constructor
  · intro hp
    cases h1 : f.get k with
    | none => rw [h1] at hp; simp [AMap.get] at hp
    | some vs =>
      rw [h1, Option.getD_some] at hp
      cases h2 : vs.get v with
      | none => rw [h2] at hp; simp at hp
      | some b => rw [h2] at hp; exact ⟨vs, b, AMap.mem_of_get h1, AMap.mem_of_get h2, hp⟩
  · rintro ⟨vs, b, h1, h2, h3⟩
    rw [AMap.get_of_mem h.1 h1, Option.getD_some, AMap.get_of_mem (h.2 _ h1) h2]
    exact h3

/-! ### The loop over the shards -/

def idxOps (bo : AMap Bytes Bm → AMap Bytes Bm) : Frags → Nat → List Sh.Op
  | [], _ => []
  | (k, vs) :: _, 0 => [.update k (bo vs) false]
  | (k, vs) :: rest, n + 1 => .update k (bo vs) true :: idxOps bo rest n

theorem indexLoop_eq (bo : AMap Bytes Bm → AMap Bytes Bm) (f : Frags) (n : Nat) (s : Sh.Store) :
    indexLoop bo f n s = ((idxOps bo f n).foldl Sh.step s, decide (f.length ≤ n)) := by
  induction f generalizing n s with
  | nil => simp [indexLoop, idxOps]
  | cons e f ih =>
    obtain ⟨k, vs⟩ := e
    cases n with
    | zero => simp [indexLoop, idxOps, Sh.step]
    | succ n => rw [indexLoop, ih, idxOps]; simp [Sh.step]

theorem mem_idxOps {bo : AMap Bytes Bm → AMap Bytes Bm} {f : Frags} {n : Nat} {op : Sh.Op} (h : op ∈ idxOps bo f n) :
    ∃ e ∈ f, ∃ ok, op = .update e.1 (bo e.2) ok := by
  induction f generalizing n with
  | nil => simp [idxOps] at h
  | cons e f ih =>
    obtain ⟨k, vs⟩ := e
    cases n with
    | zero => simp only [idxOps, List.mem_singleton] at h; exact ⟨_, List.mem_cons_self, _, h⟩
    | succ n =>
      rcases List.mem_cons.1 h with h | h
      · exact ⟨_, List.mem_cons_self, _, h⟩
      · obtain ⟨e, he, ok, h⟩ := ih h
        exact ⟨e, List.mem_cons_of_mem _ he, ok, h⟩

theorem idxOps_complete {bo : AMap Bytes Bm → AMap Bytes Bm} {f : Frags} {n : Nat} (hn : f.length ≤ n) {e : Nat × AMap Bytes Bm}
    (he : e ∈ f) : .update e.1 (bo e.2) true ∈ idxOps bo f n := by
  induction f generalizing n with
  | nil => simp at he
  | cons a f ih =>
    obtain ⟨k, vs⟩ := a
    cases n with
    | zero => simp at hn
    | succ n =>
      rcases List.mem_cons.1 he with rfl | he
      · simp [idxOps]
      · exact List.mem_cons_of_mem _ (ih (by simpa using hn) he)

/-! ### One flush -/

/-- The sample with its time bounds. -/
def norm (s : Sample) : Sample := { s with minTs := startOf s.data, maxTs := (bounds (dataTimes s.data) (0, 0)).2 }

/-- What one flush did. -/
structure Rec where
  r : Int
  fl : Flush
  es : List Entry
  m : AMap Bytes (List Sample)
  f : Frags

def Rec.ss (c : Rec) : List Sample := c.fl.samples.map norm

def Rec.call (c : Rec) : Df.Call := { samples := c.ss, order := c.fl.viewOrder c.m, commits := c.fl.commits }

/-- All views of the data frame were written. -/
def Rec.framed (c : Rec) : Bool := decide (c.m.length ≤ c.fl.commits)

def Rec.ok (c : Rec) : Bool := c.framed && decide (c.f.length ≤ c.fl.commits - c.m.length)

def Rec.sops (c : Rec) : List Sh.Op :=
  if c.framed then idxOps c.fl.bitsOrder (c.fl.shardOrder c.f) (c.fl.commits - c.m.length) else []

def Rec.offered (c : Rec) : List Offered := tag c.ok c.r c.fl.samples

structure Rec.Ok (D : Dict σ) (st : σ) (c : Rec) : Prop where
  fair : c.fl.Fair
  proc : Processed D st c.r c.fl.samples c.ss c.es
  group : Df.groupViews c.ss [] = some c.m
  frags : c.f = (makeFragments c.es []).1

theorem Processed.mono {D : Dict σ} {st st' : σ} (hk : ∀ a m, D.look st a = some m → D.look st' a = some m) :
    ∀ {r ss ss' es}, Processed D st r ss ss' es → Processed D st' r ss ss' es
  | _, [], [], [], _ => trivial
  | _, _ :: _, _ :: _, _ :: _, h => ⟨h.1.mono hk, Processed.mono hk h.2⟩
  | _, [], _ :: _, _, h => h.elim
  | _, [], [], _ :: _, h => h.elim
  | _, _ :: _, [], _, h => h.elim
  | _, _ :: _, _ :: _, [], h => h.elim

theorem Processed.norm {D : Dict σ} {st : σ} : ∀ {r ss ss' es}, Processed D st r ss ss' es → ss' = ss.map norm
  | _, [], [], [], _ => rfl
  | _, _ :: _, _ :: _, _ :: _, h => by rw [h.1.sample, Processed.norm h.2]; rfl
  | _, [], _ :: _, _, h => h.elim
  | _, [], [], _ :: _, h => h.elim
  | _, _ :: _, [], _, h => h.elim
  | _, _ :: _, _ :: _, [], h => h.elim

/-- Entries and offered samples correspond. -/
theorem Processed.entry {D : Dict σ} {st : σ} (ok : Bool) : ∀ {r ss ss' es}, Processed D st r ss ss' es →
    (∀ e ∈ es, ∃ o ∈ tag ok r ss, EntryOf D st o.res o.sample (St.norm o.sample) e) ∧
    ∀ o ∈ tag ok r ss, ∃ e ∈ es, EntryOf D st o.res o.sample (St.norm o.sample) e
  | _, [], [], [], _ => ⟨by simp, by simp [tag]⟩
  | _, s :: _, _ :: _, e :: _, h => by
    have h1 := h.1
    rw [h1.sample] at h1
    obtain ⟨i1, i2⟩ := Processed.entry ok h.2
    refine ⟨fun e' he => ?_, fun o ho => ?_⟩
    · rcases List.mem_cons.1 he with rfl | he
      · exact ⟨_, List.mem_cons_self, h1⟩
      · obtain ⟨o, ho, x⟩ := i1 e' he
        exact ⟨o, List.mem_cons_of_mem _ ho, x⟩
    · rcases List.mem_cons.1 ho with rfl | ho
      · exact ⟨_, List.mem_cons_self, h1⟩
      · obtain ⟨e', he, x⟩ := i2 o ho
        exact ⟨e', List.mem_cons_of_mem _ he, x⟩
  | _, [], _ :: _, _, h => h.elim
  | _, [], [], _ :: _, h => h.elim
  | _, _ :: _, [], _, h => h.elim
  | _, _ :: _, _ :: _, [], h => h.elim

theorem tag_samples (ok : Bool) (r : Int) (ss : List Sample) : (tag ok r ss).map (·.sample) = ss := by
  induction ss generalizing r with
  | nil => rfl
  | cons s ss ih => simp [tag, ih]

theorem tag_ok (ok : Bool) (r : Int) (ss : List Sample) : ∀ o ∈ tag ok r ss, o.ok = ok := by
  induction ss generalizing r with
  | nil => simp [tag]
  | cons s ss ih =>
    intro o ho
    rcases List.mem_cons.1 ho with rfl | ho
    · rfl
    · exact ih _ o ho

theorem startOf_lt {d : Data} (h : ∀ a b, HasTime d a b → a < 2 ^ 64) : startOf d < 2 ^ 64 := by
  unfold startOf
  by_cases hne : dataTimes d = []
  · rw [hne]; decide
  · obtain ⟨b, hb⟩ := bounds_min_mem' (dataTimes d) hne 0
    exact h _ b (mem_dataTimes.1 hb)

theorem entry_good {D : Dict σ} {st : σ} {r : Int} {s : Sample} {e : Entry} (h : EntryOf D st r s (norm s) e)
    (ht : startOf s.data < 2 ^ 64) : Good e := by
  right
  rw [h.q]
  obtain ⟨vs, hv, -, -⟩ := Df.sampleViews_spec ht
  have : viewsOf (ymdh (toInt64 (norm s).minTs)) quantumYMDH = some vs := hv
  rw [this]; rfl

theorem Rec.Ok.good {D : Dict σ} {st : σ} {c : Rec} (h : c.Ok D st) : ∀ e ∈ c.es, Good e := by
  intro e he
  obtain ⟨o, ho, x⟩ := (Processed.entry c.ok h.proc).1 e he
  have hs : o.sample ∈ c.fl.samples := by
    rw [← tag_samples c.ok c.r c.fl.samples]; exact List.mem_map.2 ⟨o, ho, rfl⟩
  exact entry_good x (startOf_lt (h.fair.times _ hs))

theorem Rec.Ok.mono {D : Dict σ} {st st' : σ} (hk : ∀ a m, D.look st a = some m → D.look st' a = some m) {c : Rec}
    (h : c.Ok D st) : c.Ok D st' := ⟨h.fair, Processed.mono hk h.proc, h.group, h.frags⟩

/-- A flush that does not exit. -/
theorem saveSamples_rec {D : Dict σ} (hD : D.Lawful) {s : Store σ} {fl : Flush} (hg : D.Good s.ctx.st)
    (hb : s.ctx.batch = Bt.Batch.new) (hf : fl.Fair) (hx : (saveSamples D s fl).2 ≠ .exit) :
    ∃ (c : Rec) (ctx : Ctx σ), c.fl = fl ∧ c.r = s.ctx.resource ∧ c.Ok D ctx.st ∧
      saveSamples D s fl =
        ({ ctx := ctx, frame := Df.step s.frame c.call, idx := c.sops.foldl Sh.step s.idx }, if c.ok then .ok else .err) ∧
      D.Good ctx.st ∧ (∀ a m, D.look s.ctx.st a = some m → D.look ctx.st a = some m) ∧ ctx.batch = Bt.Batch.new ∧
      ctx.resource = fl.samples.foldl (fun r x => x.data.signal.getD r) s.ctx.resource := by
  unfold saveSamples processSamples at hx ⊢
  cases hp : processAll D.tr fl.samples s.ctx with
  | none => simp [hp] at hx
  | some x =>
    obtain ⟨c1, ss'⟩ := x
    obtain ⟨g1, k1, r1, es, b1, p1⟩ := processAll_spec hD hg hp
    have hss := Processed.norm p1
    have hgood : ∀ e ∈ es, Good e := by
      intro e he
      obtain ⟨o, ho, x⟩ := (Processed.entry true p1).1 e he
      have hs : o.sample ∈ fl.samples := by
        rw [← tag_samples true s.ctx.resource fl.samples]; exact List.mem_map.2 ⟨o, ho, rfl⟩
      exact entry_good x (startOf_lt (hf.times _ hs))
    have hbe : c1.batch.entries = es := by rw [b1, hb]; rfl
    have hbf : c1.batch.frags = [] := by rw [b1, hb]; rfl
    have hts : ∀ x ∈ ss', x.minTs < 2 ^ 64 := by
      rw [hss]; intro x hx
      obtain ⟨y, hy, rfl⟩ := List.mem_map.1 hx
      exact startOf_lt (hf.times y hy)
    obtain ⟨m, hm, -, -⟩ := Df.groupViews_spec ss' hts [] (by simp [AMap.Ok])
    have hbuild : c1.batch.build = (Bt.Batch.new, some (makeFragments es []).1) := by
      unfold Bt.Batch.build
      rw [hbe, hbf]
      have h1 := (Bt.makeFragments_good (f := []) hgood).1
      generalize makeFragments es [] = x at h1 ⊢
      obtain ⟨f, ok⟩ := x
      have h1 : ok = true := h1
      subst h1; rfl
    rw [hss] at p1
    have hm' := hm
    rw [hss] at hm'
    refine ⟨⟨s.ctx.resource, fl, es, m, (makeFragments es []).1⟩, { c1 with batch := Bt.Batch.new }, rfl, rfl,
      ⟨hf, p1, hm', rfl⟩, ?_, g1, k1, rfl, r1⟩
    have hl := (hf.views m).length_eq
    have hl2 := (hf.shards (makeFragments es []).1).length_eq
    simp only [Option.bind_eq_bind, Option.bind_some, hbuild, hm, Df.appendViews, hl, decide_eq_true_eq, indexLoop_eq, hl2]
    by_cases h : m.length ≤ fl.commits
    · simp [h, Df.step, Df.appendViews, Rec.call, Rec.sops, Rec.framed, Rec.ok, hl]
    · simp [h, Df.step, Df.appendViews, Rec.call, Rec.sops, Rec.framed, Rec.ok, hl]

/-! ### Histories -/

theorem run_append (so : List Sh.Op) (l : List Sh.Op) : l.foldl Sh.step (Sh.run so) = Sh.run (so ++ l) := by
  simp [Sh.run, List.foldl_append]

/-- What a history left behind, in terms of its flushes. -/
structure Hist (D : Dict σ) (s : Store σ) (cs0 : List Df.Call) (so0 : List Sh.Op) (recs : List Rec) (so : List Sh.Op) : Prop where
  good : D.Good s.ctx.st
  frame : s.frame = Df.run (cs0 ++ recs.map (·.call))
  idx : s.idx = Sh.run (so0 ++ so)
  oks : ∀ c ∈ recs, c.Ok D s.ctx.st
  wr : ∀ op ∈ so, op = .restart ∨ ∃ c ∈ recs, op ∈ c.sops
  all : ∀ c ∈ recs, ∀ op ∈ c.sops, op ∈ so

/-- The flushes of a history, each with the resource in force before it. -/
def plain : Int → List (Op σ) → List (Int × Flush)
  | _, [] => []
  | r, .flush fl :: ops => (r, fl) :: plain (fl.samples.foldl (fun r x => x.data.signal.getD r) r) ops
  | _, .restart _ :: ops => plain 0 ops

theorem hist {D : Dict σ} (hD : D.Lawful) (ops : List (Op σ)) : ∀ (s : Store σ) (cs0 : List Df.Call) (so0 : List Sh.Op),
    D.Good s.ctx.st → s.ctx.batch = Bt.Batch.new → s.frame = Df.run cs0 → s.idx = Sh.run so0 → Valid D s ops →
    ∃ recs so, Hist D (ops.foldl (step D) s) cs0 so0 recs so ∧
      offered D s s.ctx.resource ops = recs.flatMap Rec.offered ∧
      (∀ a m, D.look s.ctx.st a = some m → D.look (ops.foldl (step D) s).ctx.st a = some m) ∧
      recs.map (fun c => (c.r, c.fl)) = plain s.ctx.resource ops ∧
      ((∀ op ∈ ops, ∀ st, op ≠ .restart st) → Sh.Op.restart ∉ so) := by
  induction ops with
  | nil =>
    intro s cs0 so0 hg _ hf hi _
    exact ⟨[], [], ⟨hg, by simpa using hf, by simpa using hi, by simp, by simp, by simp⟩, rfl, fun _ _ h => h, rfl, by simp⟩
  | cons op ops ih =>
    intro s cs0 so0 hg hb hf hi hv
    cases op with
    | flush fl =>
      obtain ⟨h1, h2, h3⟩ := hv
      obtain ⟨c, ctx, rfl, hr, hok, he, hg', hk, hb', hres⟩ := saveSamples_rec hD hg hb h1 h2
      have e1 : (saveSamples D s c.fl).1.ctx = ctx := by rw [he]
      obtain ⟨recs, so, hH, ho, hl, hfl, hnr⟩ := ih (saveSamples D s c.fl).1 (cs0 ++ [c.call]) (so0 ++ c.sops) (by rw [e1]; exact hg')
        (by rw [e1]; exact hb') (by rw [he, hf, Df.run_snoc]) (by rw [he, hi]; exact run_append _ _) h3
      have hkeep : ∀ a m, D.look ctx.st a = some m → D.look (List.foldl (step D) s (.flush c.fl :: ops)).ctx.st a = some m := by
        rw [List.foldl_cons]; intro a m h; exact hl a m (by rw [e1]; exact h)
      refine ⟨c :: recs, c.sops ++ so, ⟨hH.good, ?_, ?_, ?_, ?_, ?_⟩, ?_, ?_, by rw [List.map_cons, hfl, e1, hres, hr]; rfl, ?_⟩
      · rw [List.foldl_cons]; show (List.foldl (step D) (saveSamples D s c.fl).1 ops).frame = _; rw [hH.frame]; simp
      · rw [List.foldl_cons]; show (List.foldl (step D) (saveSamples D s c.fl).1 ops).idx = _; rw [hH.idx]; simp
      · intro c' hc'
        rcases List.mem_cons.1 hc' with rfl | hc'
        · exact hok.mono hkeep
        · exact hH.oks c' hc'
      · intro op hop
        rcases List.mem_append.1 hop with hop | hop
        · exact .inr ⟨c, List.mem_cons_self, hop⟩
        · rcases hH.wr op hop with h | ⟨c', h, h'⟩
          · exact .inl h
          · exact .inr ⟨c', List.mem_cons_of_mem _ h, h'⟩
      · intro c' hc' op hop
        rcases List.mem_cons.1 hc' with rfl | hc'
        · exact List.mem_append_left _ hop
        · exact List.mem_append_right _ (hH.all c' hc' op hop)
      · rw [List.flatMap_cons, ← ho]
        rw [show offered D s s.ctx.resource (.flush c.fl :: ops) = tag ((saveSamples D s c.fl).2 == .ok) s.ctx.resource c.fl.samples ++
          offered D (saveSamples D s c.fl).1 (c.fl.samples.foldl (fun r x => x.data.signal.getD r) s.ctx.resource) ops from rfl]
        rw [e1, hres, ← hr]
        congr 1
        rw [he]
        unfold Rec.offered
        cases c.ok <;> rfl
      · intro a m h; exact hkeep a m (hk a m h)
      · intro hn
        rw [List.mem_append, not_or]
        refine ⟨fun h => ?_, hnr fun op hop => hn op (List.mem_cons_of_mem _ hop)⟩
        unfold Rec.sops at h
        split at h
        · obtain ⟨_, _, _, h⟩ := mem_idxOps h; cases h
        · simp at h
    | restart st =>
      obtain ⟨h1, h2, h3⟩ := hv
      obtain ⟨recs, so, hH, ho, hl, hfl, _⟩ := ih (step D s (.restart st)) cs0 (so0 ++ [.restart]) h1 rfl hf
        (by rw [Sh.run_snoc, ← hi]; rfl) h3
      refine ⟨recs, .restart :: so, ⟨hH.good, hH.frame, ?_, hH.oks, ?_, ?_⟩, ho, ?_, hfl, ?_⟩
      · rw [List.foldl_cons, hH.idx]; simp
      · intro op hop
        rcases List.mem_cons.1 hop with rfl | hop
        · exact .inl rfl
        · exact hH.wr op hop
      · intro c hc op hop; exact List.mem_cons_of_mem _ (hH.all c hc op hop)
      · intro a m h; exact hl a m (h2 a m h)
      · intro hn; exact absurd rfl (hn _ List.mem_cons_self st)

end Verif.St
