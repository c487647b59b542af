import Verif.Spec.Shared
import Verif.Lemmas.Translate3
import Verif.Spec.Views
import Mathlib.Tactic.SplitIfs
/-!
# C54: one database for everything
-/
namespace Verif.Shr
variable {ι : Type} [DecidableEq ι] {C : ι → Comp}

/-- Two outcomes on databases that agree on the keys `P`. -/
def Alike {α : Type} (P : Bytes → Prop) (db1 : KV) : Option (KV × α) → Option (KV × α) → Prop
  | none, none => True
  | some (d1, a1), some (d2, a2) => a1 = a2 ∧ (∀ k, P k → d1 k = d2 k) ∧ ∀ k, ¬ P k → d1 k = db1 k
  | _, _ => False

/-- The operations only read and write keys in `P`. -/
structure Local (C : Comp) (P : Bytes → Prop) (I : C.S → Prop) : Prop where
  alike : ∀ db1 db2 s op, I s → (∀ k, P k → db1 k = db2 k) → Alike P db1 (C.step db1 s op) (C.step db2 s op)
  keep : ∀ db s op db' s' o, I s → C.step db s op = some (db', s', o) → I s'

theorem Alike.cases {α : Type} {P : Bytes → Prop} {db1 : KV} {r1 r2 : Option (KV × α)} (h : Alike P db1 r1 r2) :
    (r1 = none ∧ r2 = none) ∨ ∃ d1 d2 a, r1 = some (d1, a) ∧ r2 = some (d2, a) ∧ (∀ k, P k → d1 k = d2 k) ∧ ∀ k, ¬ P k → d1 k = db1 k := by
  match r1, r2, h with
  | none, none, _ => exact .inl ⟨rfl, rfl⟩
  | some (d1, a1), some (d2, a2), h => obtain ⟨rfl, h1, h2⟩ := h; exact .inr ⟨d1, d2, a1, rfl, rfl, h1, h2⟩

/-- If every part keeps to its own keys, and no key belongs to two, then what each of them does and sees on the shared database is
what it does and sees on a database of its own that starts the same. -/
theorem isolated {P : ι → Bytes → Prop} {I : ∀ i, (C i).S → Prop} (hL : ∀ i, Local (C i) (P i) (I i)) (hd : ∀ i j k, P i k → P j k → i = j) :
    ∀ (ops : List ((i : ι) × (C i).Op)) (db : KV) (s : ∀ i, (C i).S) (own : ι → KV), (∀ i, I i (s i)) → (∀ i k, P i k → own i k = db k) →
      (∀ db' s' os, run C db s ops = some (db', s', os) →
        (∀ i, ∃ d, (C i).run (own i) (s i) (ofPart i ops) = some (d, s' i, ofPart i os) ∧ ∀ k, P i k → d k = db' k) ∧
        ∀ k, (∀ i, ¬ P i k) → db' k = db k) ∧
      (run C db s ops = none → ∃ i, (C i).run (own i) (s i) (ofPart i ops) = none) := by
  intro ops
  induction ops with
  | nil =>
    intro db s own hI ho
    refine ⟨?_, fun h => (nomatch h)⟩
    intro db' s' os h
    cases h
    exact ⟨fun i => ⟨own i, rfl, ho i⟩, fun _ _ => rfl⟩
  | cons x ops ih =>
    obtain ⟨i, op⟩ := x
    intro db s own hI ho
    have hpi : ofPart i (⟨i, op⟩ :: ops) = op :: ofPart i ops := by simp [ofPart]
    have hpj : ∀ j, j ≠ i → ofPart j (⟨i, op⟩ :: ops) = ofPart j ops := by
      intro j hj; unfold ofPart; rw [List.filterMap_cons_none]; simp [Ne.symm hj]
    rcases ((hL i).alike db (own i) (s i) op (hI i) fun k hk => (ho i k hk).symm).cases with ⟨h1, h2⟩ | ⟨d1, d2, ⟨s1, o⟩, h1, h2, h3, h4⟩
    · refine ⟨fun db' s' os h => ?_, fun _ => ⟨i, ?_⟩⟩
      · simp only [run, h1] at h; cases h
      · simp only [hpi, Comp.run, h2]
    · have hI' : ∀ j, I j ((fun j => if h : j = i then h ▸ s1 else s j) j) := by
        intro j
        by_cases hj : j = i
        · subst hj; simp only [dif_pos]; exact (hL j).keep _ _ _ _ _ _ (hI j) h1
        · simp only [dif_neg hj]; exact hI j
      have ho' : ∀ j k, P j k → (fun j => if j = i then d2 else own j) j k = d1 k := by
        intro j k hk
        by_cases hj : j = i
        · subst hj; simp only [if_true]; exact (h3 k hk).symm
        · simp only [if_neg hj]
          rw [ho j k hk, h4 k fun h => hj (hd j i k hk h)]
      obtain ⟨ih1, ih2⟩ := ih d1 (fun j => if h : j = i then h ▸ s1 else s j) (fun j => if j = i then d2 else own j) hI' ho'
      simp only [run, h1]
      cases hr : run C d1 (fun j => if h : j = i then h ▸ s1 else s j) ops with
      | none =>
        refine ⟨fun _ _ _ h => (nomatch h), fun _ => ?_⟩
        obtain ⟨j, hj⟩ := ih2 hr
        refine ⟨j, ?_⟩
        by_cases e : j = i
        · subst e
          simp only [dif_pos, if_true] at hj
          simp only [hpi, Comp.run, h2, hj]
        · simp only [dif_neg e, if_neg e] at hj
          rw [hpj j e]; exact hj
      | some y =>
        obtain ⟨db2, s2, os2⟩ := y
        refine ⟨?_, fun h => (nomatch h)⟩
        intro db' s' os h
        cases h
        obtain ⟨ih3, ih4⟩ := ih1 _ _ _ hr
        refine ⟨fun j => ?_, fun k hk => (ih4 k hk).trans (h4 k (hk i))⟩
        obtain ⟨d, hd1, hd2⟩ := ih3 j
        by_cases e : j = i
        · subst e
          simp only [dif_pos, if_true] at hd1
          have hq : ofPart j (⟨j, o⟩ :: os2) = o :: ofPart j os2 := by simp [ofPart]
          exact ⟨d, by simp only [hpi, Comp.run, h2, hd1, hq], hd2⟩
        · simp only [dif_neg e, if_neg e] at hd1
          have hq : ofPart j (⟨i, o⟩ :: os2) = ofPart j os2 := by
            unfold ofPart; rw [List.filterMap_cons_none]; simp [Ne.symm e]
          exact ⟨d, by rw [hpj j e, hq]; exact hd1, hd2⟩


/-! ### Each part keeps to its own keys -/

/-- Databases that agree on `P`, and outside of it are unchanged. -/
def Upd (P : Bytes → Prop) (db1 d1 d2 : KV) : Prop := (∀ k, P k → d1 k = d2 k) ∧ ∀ k, ¬ P k → d1 k = db1 k

theorem Upd.refl {P : Bytes → Prop} {db1 db2 : KV} (h : ∀ k, P k → db1 k = db2 k) : Upd P db1 db1 db2 := ⟨h, fun _ _ => rfl⟩

theorem Upd.set {P : Bytes → Prop} {db d1 d2 : KV} (h : Upd P db d1 d2) {k : Bytes} (hk : P k) (v : Bytes) : Upd P db (d1.set k v) (d2.set k v) := by
  refine ⟨fun x hx => ?_, fun x hx => ?_⟩
  · unfold KV.set; split
    · rfl
    · exact h.1 x hx
  · unfold KV.set; rw [if_neg (by rintro rfl; exact hx hk)]; exact h.2 x hx

theorem upd_lease {P : Bytes → Prop} {db1 db2 : KV} (h : ∀ k, P k → db1 k = db2 k) {s : Sequence} (hk : P s.key) :
    (s.updateLease db1 = none ∧ s.updateLease db2 = none) ∨
    ∃ d1 d2 s', s.updateLease db1 = some (d1, s') ∧ s.updateLease db2 = some (d2, s') ∧ s'.key = s.key ∧ Upd P db1 d1 d2 := by
  simp only [Sequence.updateLease]
  rw [← h _ hk]
  cases db1 s.key with
  | none => exact .inr ⟨_, _, _, rfl, rfl, rfl, (Upd.refl h).set hk _⟩
  | some v =>
    simp only
    cases btou64 v with
    | none => exact .inl ⟨rfl, rfl⟩
    | some n => exact .inr ⟨_, _, _, rfl, rfl, rfl, (Upd.refl h).set hk _⟩

theorem upd_next {P : Bytes → Prop} {db1 db2 : KV} (h : ∀ k, P k → db1 k = db2 k) {s : Sequence} (hk : P s.key) :
    (s.nextId db1 = none ∧ s.nextId db2 = none) ∨
    ∃ n d1 d2 s', s.nextId db1 = some (n, d1, s') ∧ s.nextId db2 = some (n, d2, s') ∧ s'.key = s.key ∧ Upd P db1 d1 d2 := by
  simp only [Sequence.nextId]
  split
  · rcases upd_lease h hk with ⟨h1, h2⟩ | ⟨d1, d2, s', h1, h2, h3, h4⟩
    · left; rw [h1, h2]; exact ⟨rfl, rfl⟩
    · right; rw [h1, h2]; exact ⟨_, _, _, _, rfl, rfl, h3, h4⟩
  · exact .inr ⟨_, _, _, _, rfl, rfl, rfl, Upd.refl h⟩

theorem upd_release {P : Bytes → Prop} {db1 db2 : KV} (h : ∀ k, P k → db1 k = db2 k) {s : Sequence} (hk : P s.key) :
    (s.release db1 = none ∧ s.release db2 = none) ∨
    ∃ r d1 d2 s', s.release db1 = some (r, d1, s') ∧ s.release db2 = some (r, d2, s') ∧ s'.key = s.key ∧ Upd P db1 d1 d2 := by
  simp only [Sequence.release]
  rw [← h _ hk]
  cases db1 s.key with
  | none => exact .inr ⟨_, _, _, _, rfl, rfl, rfl, Upd.refl h⟩
  | some v =>
    simp only
    cases btou64 v with
    | none => exact .inl ⟨rfl, rfl⟩
    | some n =>
      simp only
      split
      · exact .inr ⟨_, _, _, _, rfl, rfl, rfl, Upd.refl h⟩
      · exact .inr ⟨_, _, _, _, rfl, rfl, rfl, (Upd.refl h).set hk _⟩

theorem Alike.of {α : Type} {P : Bytes → Prop} {db1 d1 d2 : KV} {a : α} (h : Upd P db1 d1 d2) : Alike P db1 (some (d1, a)) (some (d2, a)) := ⟨rfl, h.1, h.2⟩

/-- What the sequence of sample ids remembers: its key. -/
def SeqOk (s : Sequence) : Prop := s.key = Sq.seqKey

theorem seq_local (c : Tr.Config) (bw : Nat) : Local (seq bw) (Mine c .seq) SeqOk := by
  have both : ∀ db1 db2 s op, SeqOk s → (∀ k, Mine c .seq k → db1 k = db2 k) →
      Alike (Mine c .seq) db1 ((seq bw).step db1 s op) ((seq bw).step db2 s op) ∧ ∀ db' s' o, (seq bw).step db1 s op = some (db', s', o) → SeqOk s' := by
    intro db1 db2 s op hs h
    have hm : Mine c .seq s.key := hs
    cases op with
    | sampleID =>
      simp only [seq, SeqOp.op, Sq.step]
      rcases upd_next h hm with ⟨h1, h2⟩ | ⟨n, d1, d2, s', h1, h2, h3, h4⟩
      · rw [h1, h2]; exact ⟨trivial, fun _ _ _ e => (nomatch e)⟩
      · rw [h1, h2]; exact ⟨.of h4, fun _ _ _ e => by cases e; exact h3.trans hs⟩
    | release =>
      simp only [seq, SeqOp.op, Sq.step]
      rcases upd_release h hm with ⟨h1, h2⟩ | ⟨n, d1, d2, s', h1, h2, h3, h4⟩
      · rw [h1, h2]; exact ⟨trivial, fun _ _ _ e => (nomatch e)⟩
      · rw [h1, h2]; exact ⟨.of h4, fun _ _ _ e => by cases e; exact h3.trans hs⟩
    | reopen =>
      simp only [seq, SeqOp.op, Sq.step, getSequence]
      rcases upd_lease h (s := { key := Sq.seqKey, next := 0, leased := 0, bandwidth := bw }) rfl with ⟨h1, h2⟩ | ⟨d1, d2, s', h1, h2, h3, h4⟩
      · rw [h1, h2]; exact ⟨trivial, fun _ _ _ e => (nomatch e)⟩
      · rw [h1, h2]; exact ⟨.of h4, fun _ _ _ e => by cases e; exact h3⟩
  exact ⟨fun db1 db2 s op hs h => (both db1 db2 s op hs h).1, fun db s op db' s' o hs e => (both db db s op hs fun _ _ => rfl).2 _ _ _ e⟩

/-- What the dictionary remembers: names that start with its prefix. -/
def DictOk (c : Tr.Config) (s : Tr.Translate × List Tr.Pending) : Prop :=
  Mine c .dict s.1.seq.key ∧ Mine c .dict s.1.keys ∧ Mine c .dict s.1.ids

theorem mine_app {c : Tr.Config} {k : Bytes} (h : Mine c .dict k) (s : Bytes) : Mine c .dict (k ++ s) := by
  obtain ⟨a, rfl⟩ := h; exact ⟨a ++ s, by simp⟩

theorem bulk_local {c : Tr.Config} {db1 db2 : KV} (h : ∀ k, Mine c .dict k → db1 k = db2 k) {p : Bytes} (hp : Mine c .dict p) :
    ∀ ids, Tr.bulkKeys db1 p ids = Tr.bulkKeys db2 p ids := by
  intro ids
  induction ids with
  | nil => rfl
  | cons i is ih => simp only [Tr.bulkKeys]; rw [h _ (mine_app hp _), ih]

theorem dict_local (c : Tr.Config) : Local (dict c) (Mine c .dict) (DictOk c) := by
  have both : ∀ db1 db2 s op, DictOk c s → (∀ k, Mine c .dict k → db1 k = db2 k) →
      Alike (Mine c .dict) db1 ((dict c).step db1 s op) ((dict c).step db2 s op) ∧ ∀ db' s' o, (dict c).step db1 s op = some (db', s', o) → DictOk c s' := by
    rintro db1 db2 ⟨tr, pe⟩ op ⟨hs, hk, hi⟩ h
    have ok : DictOk c (tr, pe) := ⟨hs, hk, hi⟩
    have same : ∀ o : Tr.Out, Alike (Mine c .dict) db1 (some (db1, (tr, pe), o)) (some (db2, (tr, pe), o)) ∧
        ∀ db' s' o', some (db1, (tr, pe), o) = some (db', s', o') → DictOk c s' := fun o => ⟨.of (Upd.refl h), fun _ _ _ e => by cases e; exact ok⟩
    have no : Alike (α := (Tr.Translate × List Tr.Pending) × Tr.Out) (Mine c .dict) db1 none none ∧
        ∀ db' s' o', (none : Option (KV × (Tr.Translate × List Tr.Pending) × Tr.Out)) = some (db', s', o') → DictOk c s' := ⟨trivial, fun _ _ _ e => (nomatch e)⟩
    cases op with
    | begin t key =>
      simp only [dict, Tr.step]
      rw [← h _ (mine_app hk key)]
      cases db1 (tr.keys ++ key) with
      | some v =>
        simp only
        cases btou64 v with
        | none => exact no
        | some n => exact same _
      | none =>
        simp only
        rcases upd_next h hs with ⟨h1, h2⟩ | ⟨n, d1, d2, s', h1, h2, h3, h4⟩
        · rw [h1, h2]; exact no
        · rw [h1, h2]; exact ⟨.of h4, fun _ _ _ e => by cases e; exact ⟨by rw [show s'.key = _ from h3]; exact hs, hk, hi⟩⟩
    | commit t sp =>
      simp only [dict, Tr.step]
      cases hf : pe.find? (fun p => p.tid = t) with
      | none => exact same _
      | some p =>
        simp only
        rw [← h _ (mine_app hk p.key)]
        by_cases hc : sp = true ∨ (db1 (tr.keys ++ p.key)).isSome = true
        · simp only [if_pos hc]
          exact ⟨.of (Upd.refl h), fun _ _ _ e => by cases e; exact ok⟩
        · simp only [if_neg hc]
          exact ⟨.of (((Upd.refl h).set (mine_app hk _) _).set (mine_app hi _) _), fun _ _ _ e => by cases e; exact ok⟩
    | find key =>
      simp only [dict, Tr.step]
      rw [← h _ (mine_app hk key)]
      cases db1 (tr.keys ++ key) with
      | none => exact same _
      | some v =>
        simp only
        cases btou64 v with
        | none => exact no
        | some n => exact same _
    | lookup id =>
      simp only [dict, Tr.step]
      rw [← h _ (mine_app hi _)]
      cases db1 (tr.ids ++ u64tob id) with
      | none => exact same _
      | some v => exact same _
    | bulk ids =>
      simp only [dict, Tr.step]
      rw [← bulk_local h hi]
      exact same _
    | close =>
      simp only [dict, Tr.step]
      rcases upd_release h hs with ⟨h1, h2⟩ | ⟨n, d1, d2, s', h1, h2, h3, h4⟩
      · rw [h1, h2]; exact no
      · rw [h1, h2]; exact ⟨.of h4, fun _ _ _ e => by cases e; exact ⟨by rw [show s'.key = _ from h3]; exact hs, hk, hi⟩⟩
    | reopen =>
      obtain ⟨p0, p1, p2, p3⟩ := Tr.names_prefix c.pfx c.spare
      simp only [dict, Tr.step, Tr.new_eq, getSequence]
      rcases upd_lease h (s := { key := (Tr.names c.pfx c.spare).n0, next := 0, leased := 0, bandwidth := c.lease }) p0 with ⟨h1, h2⟩ | ⟨d1, d2, s', h1, h2, h3, h4⟩
      · rw [h1, h2]; exact no
      · rw [h1, h2]; exact ⟨.of h4, fun _ _ _ e => by cases e; exact ⟨p1, p2, p3⟩⟩
  exact ⟨fun db1 db2 s op hs h => (both db1 db2 s op hs h).1, fun db s op db' s' o hs e => (both db db s op hs fun _ _ => rfl).2 _ _ _ e⟩

theorem frame_local (c : Tr.Config) : Local frame (Mine c .frame) (fun _ => True) := by
  refine ⟨?_, fun _ _ _ _ _ _ _ _ => trivial⟩
  intro db1 db2 s op _ h
  simp only [frame]
  split
  · rename_i hv
    obtain ⟨t, ht⟩ := List.isPrefixOf_iff_prefix.1 hv
    have m0 : Mine c .frame op.view := ⟨_, ht.symm⟩
    have m1 : Mine c .frame (setsMetrics ++ op.view) := ⟨_, rfl⟩
    have m2 : Mine c .frame (setsTraces ++ op.view) := ⟨_, rfl⟩
    have m3 : Mine c .frame (setsLogs ++ op.view) := ⟨_, rfl⟩
    have hr : readAt db1 op.view = readAt db2 op.view := by
      simp only [readAt]; rw [h _ m0, h _ m1, h _ m2, h _ m3]
    cases op with
    | read v =>
      simp only [frameStep, FrameOp.view] at hr ⊢
      rw [← hr]; exact .of (Upd.refl h)
    | append v new =>
      simp only [frameStep, FrameOp.view] at hr m0 m1 m2 m3 ⊢
      rw [← hr]
      have hw : ∀ q, Upd (Mine c .frame) db1 (writeAt db1 v q) (writeAt db2 v q) := fun q =>
        ((((Upd.refl h).set m0 _).set m1 _).set m2 _).set m3 _
      cases readAt db1 v with
      | absent => exact .of (hw _)
      | some q => exact .of (hw _)
      | broken => exact .of (Upd.refl h)
  · exact .of (Upd.refl h)

/-! ### The parts alone -/

theorem dict_run (c : Tr.Config) : ∀ (ops : List Tr.Op) (w : Tr.World),
    (dict c).run w.db (w.tr, w.pending) ops = (Tr.run c w ops).map fun r => (r.1.db, (r.1.tr, r.1.pending), r.2) := by
  intro ops
  induction ops with
  | nil => intro w; rfl
  | cons op ops ih =>
    intro w
    simp only [Comp.run, Tr.run, dict]
    cases h : Tr.step c w op with
    | none => rfl
    | some r =>
      obtain ⟨w1, o⟩ := r
      simp only
      have := ih w1
      simp only [dict] at this
      rw [this]
      cases Tr.run c w1 ops <;> rfl

theorem seq_run (bw : Nat) : ∀ (ops : List SeqOp) (w : Sq.World),
    ((seq bw).run w.db w.seq ops).map (fun r => r.2.2.flatMap Option.toList) = Sq.run bw w (ops.map SeqOp.op) := by
  intro ops
  induction ops with
  | nil => intro w; rfl
  | cons op ops ih =>
    intro w
    have hstep : (seq bw).step w.db w.seq op = (match Sq.step bw w op.op with | none => none | some (w, o) => some (w.db, w.seq, o)) := rfl
    simp only [Comp.run, List.map_cons, Sq.run]
    rw [hstep]
    cases h : Sq.step bw w op.op with
    | none => rfl
    | some r =>
      obtain ⟨w1, o⟩ := r
      simp only
      rw [← ih w1]
      cases (seq bw).run w1.db w1.seq ops with
      | none => rfl
      | some y => rfl

/-- The database shows the map `m` of views. -/
def Shows (db : KV) (m : Bytes → Option Quad) : Prop :=
  ∀ v, [115, 116, 100, 95] <+: v → readAt db v = match m v with | none => .absent | some q => .some q

theorem writeAt_other {db : KV} {v k : Bytes} {q : Quad} (h0 : k ≠ v) (h1 : k ≠ setsMetrics ++ v) (h2 : k ≠ setsTraces ++ v) (h3 : k ≠ setsLogs ++ v) :
    writeAt db v q k = db k := by
  simp [writeAt, KV.set, h0, h1, h2, h3]

theorem read_write {db : KV} {v w : Bytes} {q : Quad} (hv : [115, 116, 100, 95] <+: v) (hw : [115, 116, 100, 95] <+: w) :
    readAt (writeAt db v q) w = if w = v then .some q else readAt db w := by
  obtain ⟨a, rfl⟩ := hv
  obtain ⟨b, rfl⟩ := hw
  have n1 : ∀ x y : Bytes, setsMetrics ++ x ≠ setsTraces ++ y := by intro x y; simp [setsMetrics, setsTraces]
  have n2 : ∀ x y : Bytes, setsMetrics ++ x ≠ setsLogs ++ y := by intro x y; simp [setsMetrics, setsLogs]
  have n3 : ∀ x y : Bytes, setsTraces ++ x ≠ setsLogs ++ y := by intro x y; simp [setsTraces, setsLogs]
  have s1 : ∀ x y : Bytes, ([115, 116, 100, 95] : Bytes) ++ x ≠ setsMetrics ++ y := by intro x y; simp [setsMetrics]
  have s2 : ∀ x y : Bytes, ([115, 116, 100, 95] : Bytes) ++ x ≠ setsTraces ++ y := by intro x y; simp [setsTraces]
  have s3 : ∀ x y : Bytes, ([115, 116, 100, 95] : Bytes) ++ x ≠ setsLogs ++ y := by intro x y; simp [setsLogs]
  by_cases h : ([115, 116, 100, 95] : Bytes) ++ b = [115, 116, 100, 95] ++ a
  · rw [if_pos h, h]
    simp only [readAt, writeAt, KV.set, if_true, if_neg (s1 _ _), if_neg (s2 _ _), if_neg (s3 _ _), if_neg (n1 _ _), if_neg (n2 _ _), if_neg (n3 _ _)]
  · rw [if_neg h]
    have e0 : writeAt db ([115, 116, 100, 95] ++ a) q ([115, 116, 100, 95] ++ b) = db ([115, 116, 100, 95] ++ b) := writeAt_other h (s1 _ _) (s2 _ _) (s3 _ _)
    have e1 : writeAt db ([115, 116, 100, 95] ++ a) q (setsMetrics ++ ([115, 116, 100, 95] ++ b)) = db (setsMetrics ++ ([115, 116, 100, 95] ++ b)) :=
      writeAt_other (s1 _ _).symm (fun e => h (List.append_cancel_left e)) (n1 _ _) (n2 _ _)
    have e2 : writeAt db ([115, 116, 100, 95] ++ a) q (setsTraces ++ ([115, 116, 100, 95] ++ b)) = db (setsTraces ++ ([115, 116, 100, 95] ++ b)) :=
      writeAt_other (s2 _ _).symm (n1 _ _).symm (fun e => h (List.append_cancel_left e)) (n3 _ _)
    have e3 : writeAt db ([115, 116, 100, 95] ++ a) q (setsLogs ++ ([115, 116, 100, 95] ++ b)) = db (setsLogs ++ ([115, 116, 100, 95] ++ b)) :=
      writeAt_other (s3 _ _).symm (n2 _ _).symm (n3 _ _).symm (fun e => h (List.append_cancel_left e))
    simp only [readAt, e0, e1, e2, e3]

theorem frame_run : ∀ (ops : List FrameOp) (db : KV) (m : Bytes → Option Quad), Shows db m → (∀ op ∈ ops, [115, 116, 100, 95] <+: op.view) →
    ∃ db', frame.run db () ops = some (db', (), (frameMaps m ops).2) ∧ Shows db' (frameMaps m ops).1 := by
  intro ops
  induction ops with
  | nil => intro db m h _; exact ⟨db, rfl, h⟩
  | cons op ops ih =>
    intro db m h hv
    have hp := hv op (by simp)
    have key : Shows (frameStep db op).1 (frameMap m op).1 ∧ (frameStep db op).2 = (frameMap m op).2 := by
      cases op with
      | read v => exact ⟨h, h v hp⟩
      | append v new =>
        have hp : [115, 116, 100, 95] <+: v := hp
        have hr := h v hp
        simp only [frameStep, frameMap]
        cases hm : m v with
        | none =>
          rw [hm] at hr
          simp only [hr]
          refine ⟨fun w hw => ?_, trivial⟩
          rw [read_write hp hw]
          by_cases e : w = v
          · simp only [if_pos e]
          · simp only [if_neg e]; exact h w hw
        | some q =>
          rw [hm] at hr
          simp only [hr]
          refine ⟨fun w hw => ?_, trivial⟩
          rw [read_write hp hw]
          by_cases e : w = v
          · simp only [if_pos e]
          · simp only [if_neg e]; exact h w hw
    obtain ⟨db', h1, h2⟩ := ih _ _ key.1 fun x hx => hv x (by simp [hx])
    refine ⟨db', ?_, h2⟩
    simp only [frameMaps, Comp.run]
    have hb : [115, 116, 100, 95].isPrefixOf op.view = true := List.isPrefixOf_iff_prefix.2 hp
    have hs : frame.step db () op = some ((frameStep db op).1, (), (frameMap m op).2) := by
      rw [← key.2]; simp only [frame, hb, if_true]
    rw [hs]
    simp only
    rw [show frame.run (frameStep db op).1 () ops = _ from h1]
    rfl

/-- All view names start with `std_`. -/
theorem view_prefix {ns : Int} {v : Bytes} (h : IsView ns v) : [115, 116, 100, 95] <+: v := by
  obtain ⟨t, hh, -, hv⟩ := h
  simp only [specViews, List.mem_cons, List.not_mem_nil, or_false] at hv
  rcases hv with rfl | rfl | rfl | rfl <;> simp only [List.append_assoc, Tm.viewPrefix] <;> exact List.prefix_append _ _

/-! ### The theorem -/

theorem mine_disjoint : ∀ i j k, Mine Tr.deployed i k → Mine Tr.deployed j k → i = j := by
  have h1 : ∀ k, Mine Tr.deployed .dict k → Mine Tr.deployed .seq k → False := by rintro k ⟨s, rfl⟩ h; cases h
  have h2 : ∀ k, Mine Tr.deployed .dict k → Mine Tr.deployed .frame k → False := by rintro k ⟨s, rfl⟩ ⟨t, h⟩; cases h
  have h3 : ∀ k, Mine Tr.deployed .seq k → Mine Tr.deployed .frame k → False := by rintro k h ⟨t, rfl⟩; cases h
  intro i j k hi hj
  cases i <;> cases j <;> first
    | rfl
    | exact (h1 k hi hj).elim
    | exact (h1 k hj hi).elim
    | exact (h2 k hi hj).elim
    | exact (h2 k hj hi).elim
    | exact (h3 k hi hj).elim
    | exact (h3 k hj hi).elim

/-- **C54.** The dictionary, the sequence of sample ids and the data frame share one database and are used in any order, with
restarts. Each of them answers exactly as if it had a database of its own; the data frame answers as a map from views, and a view
is never found without its sets. `db`: a database without entries of the data frame. -/
theorem C54_isolated (bw : Nat) (db : KV) (hdb : ∀ s, db (115 :: s) = none) (ops : List ((p : Part) × (program Tr.deployed bw p).Op))
    (hops : ∀ op ∈ frameOps ops, ∃ ns, IsView ns (FrameOp.view op))
    {db' : KV} {os : List ((p : Part) × (program Tr.deployed bw p).Out)} (h : history Tr.deployed bw db ops = some (db', os)) :
    dictAlone Tr.deployed db (dictOps ops) = some (dictOuts os) ∧
    seqAlone bw db (seqOps ops) = some ((seqOuts os).flatMap Option.toList) ∧
    frameOuts os = (frameMaps (fun _ => none) (frameOps ops)).2 := by
  unfold history at h
  cases hb : boot Tr.deployed bw db with
  | none => rw [hb] at h; cases h
  | some r =>
    obtain ⟨db1, s1⟩ := r
    rw [hb] at h
    simp only at h
    cases hr : run (program Tr.deployed bw) db1 s1 ops with
    | none => rw [hr] at h; cases h
    | some r =>
      obtain ⟨db2, s2, os2⟩ := r
      rw [hr] at h
      cases h
      unfold boot at hb
      cases hn : Tr.new Tr.deployed db with
      | none => rw [hn] at hb; cases hb
      | some x =>
        obtain ⟨da, tr⟩ := x
        rw [hn] at hb
        simp only at hb
        cases hg : getSequence da Sq.seqKey bw with
        | none => rw [hg] at hb; cases hb
        | some x =>
          obtain ⟨dc, sq⟩ := x
          rw [hg] at hb
          cases hb
          have hda : (∀ k, ¬ Mine Tr.deployed .dict k → da k = db k) ∧ DictOk Tr.deployed (tr, []) := by
            have hstep : (dict Tr.deployed).step db ({ seq := { key := [53], next := 0, leased := 0, bandwidth := 0 }, keys := [53], ids := [53] }, []) .reopen = some (da, (tr, []), .opened) := by
              simp only [dict, Tr.step, hn]
            have ok : DictOk Tr.deployed ({ seq := { key := [53], next := 0, leased := 0, bandwidth := 0 }, keys := [53], ids := [53] }, []) := ⟨⟨[], rfl⟩, ⟨[], rfl⟩, ⟨[], rfl⟩⟩
            refine ⟨?_, (dict_local Tr.deployed).keep _ _ _ _ _ _ ok hstep⟩
            have := (dict_local Tr.deployed).alike db db _ .reopen ok fun _ _ => rfl
            rw [hstep] at this
            exact this.2.2
          rcases upd_lease (P := Mine Tr.deployed .seq) (db1 := da) (db2 := db)
              (fun k hk => hda.1 k fun h => (nomatch mine_disjoint _ _ k hk h)) (s := { key := Sq.seqKey, next := 0, leased := 0, bandwidth := bw }) rfl with ⟨h1, -⟩ | ⟨d1, d2, s', h1, h2, h3, h4⟩
          · unfold getSequence at hg; rw [h1] at hg; cases hg
          · unfold getSequence at hg
            rw [h1] at hg
            cases hg
            have hL : ∀ p, Local (program Tr.deployed bw p) (Mine Tr.deployed p)
                ((fun | .dict => DictOk Tr.deployed | .seq => SeqOk | .frame => fun _ => True : ∀ p, (program Tr.deployed bw p).S → Prop) p) := by
              intro p
              cases p
              · exact dict_local _
              · exact seq_local _ bw
              · exact frame_local _
            obtain ⟨hi, -⟩ := isolated hL mine_disjoint ops db1 (fun | .dict => (tr, []) | .seq => sq | .frame => ())
              (fun | .dict => da | .seq => d2 | .frame => db)
              (by intro p; cases p
                  · exact hda.2
                  · exact h3
                  · trivial)
              (by intro p k hk
                  cases p
                  · exact (h4.2 k fun h => (nomatch mine_disjoint _ _ k hk h)).symm
                  · exact (h4.1 k hk).symm
                  · exact ((h4.2 k fun h => (nomatch mine_disjoint _ _ k hk h)).trans (hda.1 k fun h => (nomatch mine_disjoint _ _ k hk h))).symm)
            obtain ⟨hi, -⟩ := hi _ _ _ hr
            refine ⟨?_, ?_, ?_⟩
            · obtain ⟨d, hd, -⟩ := hi .dict
              unfold dictAlone Tr.init
              rw [hn]
              simp only
              have e := dict_run Tr.deployed (dictOps ops) { db := da, tr := tr, pending := [] }
              rw [show (dict Tr.deployed).run da (tr, []) _ = _ from hd] at e
              cases hx : Tr.run Tr.deployed { db := da, tr := tr, pending := [] } (dictOps ops) with
              | none => rw [hx] at e; cases e
              | some y =>
                rw [hx] at e
                have e2 := congrArg Prod.snd (congrArg Prod.snd (Option.some.inj e))
                simp only [Option.map_some]
                exact congrArg some e2.symm
            · obtain ⟨d, hd, -⟩ := hi .seq
              unfold seqAlone Sq.history getSequence
              rw [h2]
              simp only
              have e := seq_run bw (seqOps ops) { db := d2, seq := sq }
              rw [show (seq bw).run d2 sq _ = _ from hd] at e
              rw [← e]; rfl
            · obtain ⟨d, hd, -⟩ := hi .frame
              obtain ⟨d', he, -⟩ := frame_run (frameOps ops) db (fun _ => none)
                (by intro v hv
                    obtain ⟨t, rfl⟩ := hv
                    have : db ([115, 116, 100, 95] ++ t) = none := hdb _
                    simp only [readAt, this])
                (fun op hop => (hops op hop).elim fun _ h => view_prefix h)
              have hd' : frame.run db () (frameOps ops) = some (d, s2 .frame, frameOuts os) := hd
              rw [he] at hd'
              exact (congrArg Prod.snd (congrArg Prod.snd (Option.some.inj hd'))).symm

/-- Not vacuous: a restart in the middle, all parts in use. -/
def someOps : List ((p : Part) × (program Tr.deployed 1000 p).Op) :=
  [⟨.dict, .begin 0 [1]⟩, ⟨.seq, .sampleID⟩, ⟨.dict, .commit 0 false⟩, ⟨.frame, .append (Tm.viewPrefix ++ Tm.pad4 1970) fun _ => ⟨[1], [2], [3], [4]⟩⟩,
   ⟨.dict, .reopen⟩, ⟨.seq, .reopen⟩, ⟨.dict, .find [1]⟩, ⟨.frame, .read (Tm.viewPrefix ++ Tm.pad4 1970)⟩, ⟨.seq, .sampleID⟩]

theorem some_history : ∃ db' os, history Tr.deployed 1000 KV.empty someOps = some (db', os) ∧
    (∃ a ∈ dictOuts os, match a with | .found [1] 0 => True | _ => False) ∧ seqOuts os = [some 0, none, some 1000] ∧
    frameOuts os = [.absent, .some ⟨[1], [2], [3], [4]⟩] := by
  have h : (history Tr.deployed 1000 KV.empty someOps).isSome = true := by decide +kernel
  obtain ⟨⟨db', os⟩, ho⟩ := Option.isSome_iff_exists.1 h
  refine ⟨db', os, ho, ?_⟩
  have h1 : (history Tr.deployed 1000 KV.empty someOps).map (fun r => (dictOuts r.2).any fun a => match a with | .found [1] 0 => true | _ => false) = some true := by decide +kernel
  have h2 : (history Tr.deployed 1000 KV.empty someOps).map (fun r => seqOuts r.2) = some [some 0, none, some 1000] := by decide +kernel
  rw [ho] at h1 h2
  refine ⟨?_, Option.some.inj h2, ?_⟩
  · obtain ⟨a, ha, hb⟩ := List.any_eq_true.1 (Option.some.inj h1)
    refine ⟨a, ha, ?_⟩
    split at hb
    · trivial
    · cases hb
  · have := (C54_isolated 1000 KV.empty (fun _ => rfl) someOps ?_ ho).2.2
    · rw [this]; rfl
    · intro op hop
      have hv : op.view = Tm.viewPrefix ++ Tm.pad4 1970 := by
        have : frameOps someOps = [.append (Tm.viewPrefix ++ Tm.pad4 1970) fun _ => ⟨[1], [2], [3], [4]⟩, .read (Tm.viewPrefix ++ Tm.pad4 1970)] := rfl
        rw [this] at hop
        simp only [List.mem_cons, List.not_mem_nil, or_false] at hop
        rcases hop with rfl | rfl <;> rfl
      rw [hv]
      exact ⟨0, ⟨1970, 1, 1⟩, 0, ⟨⟨by decide, by decide, by decide, by decide⟩, by decide, by decide +kernel, by decide +kernel⟩, by simp [specViews]⟩

end Verif.Shr
