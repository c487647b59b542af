import Verif.Lemmas.Layout
/-! # C74: what is in the database -/
namespace Verif.Shr

theorem setsMetrics_text : setsMetrics = ascii "sets_metrics_" := rfl
theorem setsTraces_text : setsTraces = ascii "sets_traces_" := rfl
theorem setsLogs_text : setsLogs = ascii "sets_logs_" := rfl
theorem std_text : [115, 116, 100, 95] = ascii "std_" := rfl

theorem entry_inj {v v' x y y' : Bytes} {q q' : Quad} (hv : [115, 116, 100, 95] <+: v) (hv' : [115, 116, 100, 95] <+: v')
    (h : ViewEntry v q x y) (h' : ViewEntry v' q' x y') : v = v' ∧ (q = q' → y = y') := by
  have n1 : ∀ x y : Bytes, setsMetrics ++ x ≠ setsTraces ++ y := by intro x y; simp [setsMetrics, setsTraces]
  have n2 : ∀ x y : Bytes, setsMetrics ++ x ≠ setsLogs ++ y := by intro x y; simp [setsMetrics, setsLogs]
  have n3 : ∀ x y : Bytes, setsTraces ++ x ≠ setsLogs ++ y := by intro x y; simp [setsTraces, setsLogs]
  have s1 : ∀ x y : Bytes, [115, 116, 100, 95] <+: x → x ≠ setsMetrics ++ y := by rintro _ y ⟨x, rfl⟩; simp [setsMetrics]
  have s2 : ∀ x y : Bytes, [115, 116, 100, 95] <+: x → x ≠ setsTraces ++ y := by rintro _ y ⟨x, rfl⟩; simp [setsTraces]
  have s3 : ∀ x y : Bytes, [115, 116, 100, 95] <+: x → x ≠ setsLogs ++ y := by rintro _ y ⟨x, rfl⟩; simp [setsLogs]
  rw [setsMetrics_text] at n1 n2 s1
  rw [setsTraces_text] at n1 n3 s2
  rw [setsLogs_text] at n2 n3 s3
  generalize hx : x = x2 at h
  cases h <;> cases h'
  · exact ⟨hx.symm, by rintro rfl; rfl⟩
  · exact absurd hx.symm (s1 _ _ hv)
  · exact absurd hx.symm (s2 _ _ hv)
  · exact absurd hx.symm (s3 _ _ hv)
  · exact absurd hx (s1 _ _ hv')
  · exact ⟨(List.append_cancel_left hx).symm, by rintro rfl; rfl⟩
  · exact absurd hx.symm (n1 _ _)
  · exact absurd hx.symm (n2 _ _)
  · exact absurd hx (s2 _ _ hv')
  · exact absurd hx (n1 _ _)
  · exact ⟨(List.append_cancel_left hx).symm, by rintro rfl; rfl⟩
  · exact absurd hx.symm (n3 _ _)
  · exact absurd hx (s3 _ _ hv')
  · exact absurd hx (n2 _ _)
  · exact absurd hx (n3 _ _)
  · exact ⟨(List.append_cancel_left hx).symm, by rintro rfl; rfl⟩

theorem writeAt_entry {db : KV} {v : Bytes} {q : Quad} (hv : [115, 116, 100, 95] <+: v) {x y : Bytes} (h : ViewEntry v q x y) :
    writeAt db v q x = some y := by
  have key : ∀ x', x' = v ∨ x' = setsMetrics ++ v ∨ x' = setsTraces ++ v ∨ x' = setsLogs ++ v → ∃ y', ViewEntry v q x' y' ∧ writeAt db v q x' = some y' := by
    intro x' hx
    by_cases h3 : x' = setsLogs ++ v
    · subst h3; exact ⟨_, .logs, by simp [writeAt, KV.set]⟩
    by_cases h2 : x' = setsTraces ++ v
    · subst h2; exact ⟨_, .traces, by simp [writeAt, KV.set, h3]⟩
    by_cases h1 : x' = setsMetrics ++ v
    · subst h1; exact ⟨_, .metrics, by simp [writeAt, KV.set, h3, h2]⟩
    have h0 : x' = v := by
      rcases hx with h | h | h | h
      · exact h
      · exact absurd h h1
      · exact absurd h h2
      · exact absurd h h3
    subst h0
    exact ⟨_, .rows, by simp only [writeAt, KV.set, if_neg h3, if_neg h2, if_neg h1, if_true]⟩
  have hx : x = v ∨ x = setsMetrics ++ v ∨ x = setsTraces ++ v ∨ x = setsLogs ++ v := by
    cases h
    · exact .inl rfl
    · exact .inr (.inl rfl)
    · exact .inr (.inr (.inl rfl))
    · exact .inr (.inr (.inr rfl))
  obtain ⟨y', h1, h2⟩ := key x hx
  rw [h2, (entry_inj hv hv h1 h).2 rfl]

theorem writeAt_rest {db : KV} {v x : Bytes} {q : Quad} (h : ¬ ∃ y, ViewEntry v q x y) : writeAt db v q x = db x := by
  apply writeAt_other
  · rintro rfl; exact h ⟨_, .rows⟩
  · rintro rfl; exact h ⟨_, .metrics⟩
  · rintro rfl; exact h ⟨_, .traces⟩
  · rintro rfl; exact h ⟨_, .logs⟩

theorem entry_other {v x y : Bytes} {q q' : Quad} (h : ViewEntry v q x y) : ∃ y', ViewEntry v q' x y' := by
  cases h
  · exact ⟨_, .rows⟩
  · exact ⟨_, .metrics⟩
  · exact ⟨_, .traces⟩
  · exact ⟨_, .logs⟩

/-- The entries with keys that start with `s` are those of the views. -/
structure Holds (db : KV) (m : Bytes → Option Quad) : Prop where
  std : ∀ v q, m v = some q → [115, 116, 100, 95] <+: v
  iff : ∀ s y, db (115 :: s) = some y ↔ ∃ v q, m v = some q ∧ ViewEntry v q (115 :: s) y

theorem Holds.append {db : KV} {m : Bytes → Option Quad} (h : Holds db m) {v : Bytes} {q : Quad} (hv : [115, 116, 100, 95] <+: v) :
    Holds (writeAt db v q) fun w => if w = v then some q else m w where
  std w q' hw := by
    by_cases e : w = v
    · exact e ▸ hv
    · simp only [if_neg e] at hw; exact h.std w q' hw
  iff s y := by
    by_cases hx : ∃ y, ViewEntry v q (115 :: s) y
    · obtain ⟨y0, h0⟩ := hx
      rw [writeAt_entry hv h0]
      constructor
      · intro e; cases e; exact ⟨v, q, by simp, h0⟩
      · rintro ⟨w, q', hw, h1⟩
        by_cases e : w = v
        · subst e
          simp only [if_true, Option.some.injEq] at hw
          subst hw
          rw [(entry_inj hv hv h0 h1).2 rfl]
        · simp only [if_neg e] at hw
          exact absurd (entry_inj (h.std w q' hw) hv h1 h0).1 e
    · rw [writeAt_rest hx, h.iff]
      constructor
      · rintro ⟨w, q', hw, h1⟩
        have e : w ≠ v := by
          rintro rfl
          exact hx (entry_other h1)
        exact ⟨w, q', by simp only [if_neg e]; exact hw, h1⟩
      · rintro ⟨w, q', hw, h1⟩
        by_cases e : w = v
        · subst e
          simp only [if_true, Option.some.injEq] at hw
          subst hw
          exact absurd ⟨_, h1⟩ hx
        · simp only [if_neg e] at hw
          exact ⟨w, q', hw, h1⟩

theorem Holds.shows {db : KV} {m : Bytes → Option Quad} (h : Holds db m) : Shows db m := by
  intro v hv
  obtain ⟨t, rfl⟩ := hv
  have hv : [115, 116, 100, 95] <+: ([115, 116, 100, 95] ++ t : Bytes) := ⟨t, rfl⟩
  have get : ∀ {q : Quad} {s y : Bytes}, m ([115, 116, 100, 95] ++ t) = some q → ViewEntry ([115, 116, 100, 95] ++ t) q (115 :: s) y → db (115 :: s) = some y :=
    fun hq he => (h.iff _ _).2 ⟨_, _, hq, he⟩
  cases hq : m ([115, 116, 100, 95] ++ t) with
  | none =>
    have : db ([115, 116, 100, 95] ++ t) = none := by
      cases hd : db ([115, 116, 100, 95] ++ t) with
      | none => rfl
      | some y =>
        obtain ⟨w, q, hw, he⟩ := (h.iff (116 :: 100 :: 95 :: t) y).1 hd
        have := (entry_inj (h.std w q hw) hv he (.rows (v := [115, 116, 100, 95] ++ t) (q := q))).1
        rw [this, hq] at hw; cases hw
    simp only [readAt, this]
  | some q =>
    have e0 : db ([115, 116, 100, 95] ++ t) = some q.rows := get hq .rows
    have e1 : db (setsMetrics ++ ([115, 116, 100, 95] ++ t)) = some q.metrics := get hq .metrics
    have e2 : db (setsTraces ++ ([115, 116, 100, 95] ++ t)) = some q.traces := get hq .traces
    have e3 : db (setsLogs ++ ([115, 116, 100, 95] ++ t)) = some q.logs := get hq .logs
    simp only [readAt, e0, e1, e2, e3]

theorem frame_holds : ∀ (ops : List FrameOp) (db : KV) (m : Bytes → Option Quad), Holds db m → (∀ op ∈ ops, [115, 116, 100, 95] <+: op.view) →
    ∀ {db' : KV} {os : List Got}, frame.run db () ops = some (db', (), os) → Holds db' (frameMaps m ops).1 := by
  intro ops
  induction ops with
  | nil => intro db m h _ db' os hr; cases hr; exact h
  | cons op ops ih =>
    intro db m h hv db' os hr
    have hp := hv op (by simp)
    have hb : [115, 116, 100, 95].isPrefixOf op.view = true := List.isPrefixOf_iff_prefix.2 hp
    have hs : frame.step db () op = some ((frameStep db op).1, (), (frameStep db op).2) := by simp only [frame, hb, if_true]
    simp only [Comp.run, hs] at hr
    have hstep : Holds (frameStep db op).1 (frameMap m op).1 := by
      cases op with
      | read v => exact h
      | append v new =>
        have hp : [115, 116, 100, 95] <+: v := hp
        have hr := h.shows v hp
        simp only [frameStep, frameMap]
        cases hm : m v with
        | none => rw [hm] at hr; simp only [hr]; exact h.append hp
        | some q => rw [hm] at hr; simp only [hr]; exact h.append hp
    cases h2 : frame.run (frameStep db op).1 () ops with
    | none => rw [show frame.run (frameStep db op).1 () ops = _ from h2] at hr; cases hr
    | some r =>
      obtain ⟨d, u, o⟩ := r
      rw [show frame.run (frameStep db op).1 () ops = _ from h2] at hr
      cases hr
      exact ih _ _ hstep (fun x hx => hv x (by simp [hx])) h2

/-- The stored number of the sequence is a number. -/
def SeqHolds (db : KV) : Prop := ∃ n, db Sq.seqKey = some (u64tob n)

theorem seq_holds {bw : Nat} : ∀ (ops : List SeqOp) (db : KV) (s : Sequence), s.key = Sq.seqKey → SeqHolds db →
    ∀ {db' : KV} {s' : Sequence} {os : List (Option Nat)}, (seq bw).run db s ops = some (db', s', os) → SeqHolds db' := by
  intro ops
  induction ops with
  | nil => intro db s _ h db' s' os hr; cases hr; exact h
  | cons op ops ih =>
    intro db s hk h db' s' os hr
    simp only [Comp.run] at hr
    have hlease : ∀ {d d' : KV} {t t' : Sequence}, t.key = Sq.seqKey → t.updateLease d = some (d', t') → SeqHolds d' ∧ t'.key = Sq.seqKey := by
      intro d d' t t' ht hu
      obtain ⟨n, hn⟩ := Tr.updateLease_db hu
      refine ⟨⟨n, by rw [hn, ht, Tr.KV.set_same]⟩, ?_⟩
      unfold Sequence.updateLease at hu
      split at hu
      · cases hu; exact ht
      · split at hu
        · cases hu
        · cases hu; exact ht
    have hstep : ∀ {d : KV} {t : Sequence} {o : Option Nat}, (seq bw).step db s op = some (d, t, o) → SeqHolds d ∧ t.key = Sq.seqKey := by
      intro d t o hs
      simp only [seq, Sq.step, SeqOp.op] at hs
      cases op with
      | sampleID =>
        simp only at hs
        cases hn : s.nextId db with
        | none => rw [hn] at hs; cases hs
        | some r =>
          obtain ⟨n, d1, t1⟩ := r
          rw [hn] at hs
          cases hs
          unfold Sequence.nextId at hn
          split at hn
          · split at hn
            · cases hn
            · rename_i hu
              cases hn
              obtain ⟨g1, g2⟩ := hlease hk hu
              exact ⟨g1, g2⟩
          · cases hn; exact ⟨h, hk⟩
      | release =>
        simp only at hs
        cases hn : s.release db with
        | none => rw [hn] at hs; cases hs
        | some r =>
          obtain ⟨n, d1, t1⟩ := r
          rw [hn] at hs
          cases hs
          unfold Sequence.release at hn
          split at hn
          · cases hn; exact ⟨h, hk⟩
          · split at hn
            · cases hn
            · split at hn
              · cases hn; exact ⟨h, hk⟩
              · cases hn
                exact ⟨⟨s.next, by dsimp only; rw [hk, Tr.KV.set_same]⟩, hk⟩
      | reopen =>
        simp only at hs
        cases hn : getSequence db Sq.seqKey bw with
        | none => rw [hn] at hs; cases hs
        | some r =>
          obtain ⟨d1, t1⟩ := r
          rw [hn] at hs
          cases hs
          exact hlease rfl hn
    cases h1 : (seq bw).step db s op with
    | none => rw [h1] at hr; cases hr
    | some r =>
      obtain ⟨d, t, o⟩ := r
      rw [h1] at hr
      simp only at hr
      obtain ⟨g1, g2⟩ := hstep h1
      cases h2 : (seq bw).run d t ops with
      | none => rw [show (seq bw).run d t ops = _ from h2] at hr; cases hr
      | some r =>
        obtain ⟨d2, t2, o2⟩ := r
        rw [show (seq bw).run d t ops = _ from h2] at hr
        cases hr
        exact ih d t g2 g1 h2

/-- The parts of a history. -/
theorem history_parts {bw : Nat} {db : KV} {ops : List ((p : Part) × (program Tr.deployed bw p).Op)}
    {db' : KV} {os : List ((p : Part) × (program Tr.deployed bw p).Out)} (h : history Tr.deployed bw db ops = some (db', os)) :
    (∃ w0 w, Tr.init Tr.deployed db = some w0 ∧ Tr.run Tr.deployed w0 (dictOps ops) = some (w, dictOuts os) ∧ ∀ k, Mine Tr.deployed .dict k → w.db k = db' k) ∧
    (∃ d0 s0 d s, getSequence db Sq.seqKey bw = some (d0, s0) ∧ (seq bw).run d0 s0 (seqOps ops) = some (d, s, seqOuts os) ∧ d Sq.seqKey = db' Sq.seqKey) ∧
    (∃ d, frame.run db () (frameOps ops) = some (d, (), frameOuts os) ∧ ∀ s, d (115 :: s) = db' (115 :: s)) ∧
    ∀ k, (∀ p, ¬ Mine Tr.deployed p k) → db' k = db k := by
  unfold history at h
  cases hb : boot Tr.deployed bw db with
  | none => rw [hb] at h; cases h
  | some r =>
    obtain ⟨db1, s1⟩ := r
    rw [hb] at h
    simp only at h
    cases hr : run (program Tr.deployed bw) db1 s1 ops with
    | none => rw [hr] at h; cases h
    | some r =>
      obtain ⟨db2, s2, os2⟩ := r
      rw [hr] at h
      cases h
      unfold boot at hb
      cases hn : Tr.new Tr.deployed db with
      | none => rw [hn] at hb; cases hb
      | some x =>
        obtain ⟨da, tr⟩ := x
        rw [hn] at hb
        simp only at hb
        cases hg : getSequence da Sq.seqKey bw with
        | none => rw [hg] at hb; cases hb
        | some x =>
          obtain ⟨dc, sq⟩ := x
          rw [hg] at hb
          cases hb
          have hda : (∀ k, ¬ Mine Tr.deployed .dict k → da k = db k) ∧ DictOk Tr.deployed (tr, []) := by
            have hstep : (dict Tr.deployed).step db ({ seq := { key := [53], next := 0, leased := 0, bandwidth := 0 }, keys := [53], ids := [53] }, []) .reopen = some (da, (tr, []), .opened) := by
              simp only [dict, Tr.step, hn]
            have ok : DictOk Tr.deployed ({ seq := { key := [53], next := 0, leased := 0, bandwidth := 0 }, keys := [53], ids := [53] }, []) := ⟨⟨[], rfl⟩, ⟨[], rfl⟩, ⟨[], rfl⟩⟩
            refine ⟨?_, (dict_local Tr.deployed).keep _ _ _ _ _ _ ok hstep⟩
            have := (dict_local Tr.deployed).alike db db _ .reopen ok fun _ _ => rfl
            rw [hstep] at this
            exact this.2.2
          rcases upd_lease (P := Mine Tr.deployed .seq) (db1 := da) (db2 := db)
              (fun k hk => hda.1 k fun h => (nomatch mine_disjoint _ _ k hk h)) (s := { key := Sq.seqKey, next := 0, leased := 0, bandwidth := bw }) rfl with ⟨h1, -⟩ | ⟨d1, d2, s', h1, h2, h3, h4⟩
          · unfold getSequence at hg; rw [h1] at hg; cases hg
          · unfold getSequence at hg
            rw [h1] at hg
            cases hg
            have hL : ∀ p, Local (program Tr.deployed bw p) (Mine Tr.deployed p)
                ((fun | .dict => DictOk Tr.deployed | .seq => SeqOk | .frame => fun _ => True : ∀ p, (program Tr.deployed bw p).S → Prop) p) := by
              intro p
              cases p
              · exact dict_local _
              · exact seq_local _ bw
              · exact frame_local _
            obtain ⟨hi, -⟩ := isolated hL mine_disjoint ops db1 (fun | .dict => (tr, []) | .seq => sq | .frame => ())
              (fun | .dict => da | .seq => d2 | .frame => db)
              (by intro p; cases p
                  · exact hda.2
                  · exact h3
                  · trivial)
              (by intro p k hk
                  cases p
                  · exact (h4.2 k fun h => (nomatch mine_disjoint _ _ k hk h)).symm
                  · exact (h4.1 k hk).symm
                  · exact ((h4.2 k fun h => (nomatch mine_disjoint _ _ k hk h)).trans (hda.1 k fun h => (nomatch mine_disjoint _ _ k hk h))).symm)
            obtain ⟨hi, hrest⟩ := hi _ _ _ hr
            refine ⟨?_, ?_, ?_, ?_⟩
            · obtain ⟨d, hd, hag⟩ := hi .dict
              have e := dict_run Tr.deployed (dictOps ops) { db := da, tr := tr, pending := [] }
              rw [show (dict Tr.deployed).run da (tr, []) _ = _ from hd] at e
              cases hx : Tr.run Tr.deployed { db := da, tr := tr, pending := [] } (dictOps ops) with
              | none => rw [hx] at e; cases e
              | some y =>
                obtain ⟨w, os⟩ := y
                rw [hx] at e
                have e1 := congrArg Prod.fst (Option.some.inj e)
                have e2 := congrArg Prod.snd (congrArg Prod.snd (Option.some.inj e))
                simp only at e1 e2
                refine ⟨_, w, by unfold Tr.init; rw [hn], ?_, fun k hk => ?_⟩
                · rw [hx]; exact congrArg (fun o => some (w, o)) e2.symm
                · rw [← e1]; exact hag k hk
            · obtain ⟨d, hd, hag⟩ := hi .seq
              exact ⟨d2, sq, d, s2 .seq, by unfold getSequence; rw [h2], hd, hag _ rfl⟩
            · obtain ⟨d, hd, hag⟩ := hi .frame
              exact ⟨d, hd, fun s => hag _ ⟨s, rfl⟩⟩
            · intro k hk
              rw [hrest k hk, h4.2 k (hk .seq), hda.1 k (hk .dict)]

/-- A label has been given this id: by some answer of the dictionary. -/
def Given {bw : Nat} (os : List ((p : Part) × (program Tr.deployed bw p).Out)) (k : Bytes) (n : Nat) : Prop := .translated k n ∈ dictOuts os

/-- **C74.** Whatever the history of a new database, with restarts: every entry of the database is one of the two counters of the
dictionary, the counter of samples, an entry of the dictionary for an answer it gave, or belongs to a view as it was last written; and
all of these are there (under an id there is one of the labels that have it). -/
theorem C74_layout (bw : Nat) (ops : List ((p : Part) × (program Tr.deployed bw p).Op)) (hb : Tr.Bounded Tr.deployed (dictOps ops))
    (hops : ∀ op ∈ frameOps ops, ∃ ns, IsView ns (FrameOp.view op))
    {db : KV} {os : List ((p : Part) × (program Tr.deployed bw p).Out)} (h : history Tr.deployed bw KV.empty ops = some (db, os)) :
    (∀ x y, db x = some y → Entry (frameMaps (fun _ => none) (frameOps ops)).1 (Given os) x y) ∧
    (∀ v q x y, (frameMaps (fun _ => none) (frameOps ops)).1 v = some q → ViewEntry v q x y → db x = some y) ∧
    (∀ k n b, Given os k n → Be64 n b → db (ascii "5idss" ++ k) = some b ∧ ∃ k', Given os k' n ∧ db (ascii "5ids" ++ b) = some k') ∧
    (∃ n b, Be64 n b ∧ db [0, 0, 0, 0, 0, 0, 0, 0, 4, 0, 0, 0] = some b) ∧ ∃ n b, Be64 n b ∧ db (ascii "5seq") = some b := by
  obtain ⟨⟨w0, w, hw0, hw, hwdb⟩, ⟨d0, s0, d, s, hd0, hd, hddb⟩, ⟨f, hf, hfdb⟩, hrest⟩ := history_parts h
  have hN := Tr.names_ok Tr.deployed.pfx Tr.deployed.spare
  have hfresh : Tr.Fresh Tr.deployed.pfx KV.empty := fun _ => rfl
  obtain ⟨hpos, hlen⟩ := hb
  have hw0' := Tr.init_eq Tr.deployed hfresh
  rw [hw0] at hw0'
  obtain ⟨hst, hnone⟩ := Tr.init_stab Tr.deployed hfresh hw0
  have hle : Tr.deployed.lease + (dictOps ops).length * Tr.deployed.lease < 2 ^ 56 := by
    rw [Nat.add_mul, Nat.one_mul] at hlen; omega
  obtain ⟨w', os', hr, hinv, hrun⟩ := Tr.stab_run hN rfl hpos (dictOps ops) (m := Tr.deployed.lease) hle hst
  rw [hw] at hr
  obtain ⟨rfl, rfl⟩ : w = w' ∧ dictOuts os = os' := by cases hr; exact ⟨rfl, rfl⟩
  obtain ⟨hwr, hids, hkeep⟩ := Tr.writes_run hN rfl hpos (dictOps ops) hle hst hw (fun k n _ hk => by rw [hnone k] at hk; cases hk)
  have hn0 : (Tr.names Tr.deployed.pfx Tr.deployed.spare).n0 = ascii "5seq" := rfl
  have hns : (Tr.names Tr.deployed.pfx Tr.deployed.spare).ns = ascii "5ids" := rfl
  have hnk : (Tr.names Tr.deployed.pfx Tr.deployed.spare).nk = ascii "5idss" := rfl
  have hni : (Tr.names Tr.deployed.pfx Tr.deployed.spare).ni = ascii "5ids" := rfl
  rw [hn0, hns, hnk, hni] at hwr
  rw [hnk, hni] at hids
  rw [hn0] at hw0'
  have hfr := frame_holds (frameOps ops) KV.empty (fun _ => none) ⟨fun _ _ h => (nomatch h), fun s y => ⟨fun h => (nomatch h), fun ⟨_, _, h, _⟩ => (nomatch h)⟩⟩
    (fun op hop => (hops op hop).elim fun _ h => view_prefix h) hf
  have hseq : SeqHolds d := by
    obtain ⟨n, hn⟩ := Tr.updateLease_db (s := { key := Sq.seqKey, next := 0, leased := 0, bandwidth := bw }) hd0
    refine seq_holds _ _ _ ?_ ⟨n, by rw [hn, Tr.KV.set_same]⟩ hd
    unfold getSequence Sequence.updateLease at hd0
    simp only [KV.empty] at hd0
    cases hd0; rfl
  have hmine : ∀ s, db (53 :: s) = w.db (53 :: s) := fun s => (hwdb _ ⟨s, rfl⟩).symm
  have given_lt : ∀ k n, Given os k n → w.db (ascii "5idss" ++ k) = some (u64tob n) ∧ n < 2 ^ 56 := fun k n hg => hrun.translated k n hg
  have entry_w : ∀ s y, w.db (53 :: s) = some y → ((53 :: s = ascii "5seq" ∨ 53 :: s = ascii "5ids") ∧ ∃ n, y = u64tob n) ∨
      ∃ k n, Given os k n ∧ (53 :: s = ascii "5idss" ++ k ∧ y = u64tob n ∨ 53 :: s = ascii "5ids" ++ u64tob n ∧ y = k) := by
    intro s y hy
    rcases hwr _ _ hy with h | h | h
    · have hw0d : w0.db = KV.empty.set (ascii "5seq") (u64tob Tr.deployed.lease) := by rw [Option.some.inj hw0']
      rw [hw0d] at h
      by_cases e : 53 :: s = ascii "5seq"
      · rw [e, Tr.KV.set_same] at h
        exact .inl ⟨.inl e, _, (Option.some.inj h).symm⟩
      · rw [Tr.KV.set_ne _ _ e] at h; cases h
    · exact .inl h
    · exact .inr h
  refine ⟨?_, ?_, ?_, ?_, ?_⟩
  · intro x y hxy
    by_cases h1 : Mine Tr.deployed .dict x
    · obtain ⟨s, rfl⟩ := h1
      change db (53 :: s) = _ at hxy
      show Entry _ _ (53 :: s) y
      rw [hmine] at hxy
      rcases entry_w s y hxy with ⟨h | h, n, rfl⟩ | ⟨k, n, hg, ⟨h, rfl⟩ | ⟨h, rfl⟩⟩
      · obtain ⟨m, hm⟩ := be64_some n; rw [h]; exact .start hm
      · obtain ⟨m, hm⟩ := be64_some n; rw [h]; exact .later hm
      · rw [h]; exact .label hg (be64_u64tob (Nat.lt_trans (given_lt k n hg).2 (by decide)))
      · rw [h]; exact .id hg (be64_u64tob (Nat.lt_trans (given_lt _ n hg).2 (by decide)))
    · by_cases h2 : Mine Tr.deployed .seq x
      · cases h2
        obtain ⟨n, hn⟩ := hseq
        rw [hddb] at hn
        rw [hn] at hxy
        cases hxy
        obtain ⟨m, hm⟩ := be64_some n
        exact .samples hm
      · by_cases h3 : Mine Tr.deployed .frame x
        · obtain ⟨s, rfl⟩ := h3
          rw [← hfdb] at hxy
          obtain ⟨v, q, hv, he⟩ := (hfr.iff s y).1 hxy
          exact .view hv he
        · rw [hrest x (fun p => by cases p <;> assumption)] at hxy
          cases hxy
  · intro v q x y hv he
    have hx : ∃ s, x = 115 :: s := by
      obtain ⟨t, rfl⟩ := hfr.std v q hv
      cases he
      · exact ⟨_, rfl⟩
      · exact ⟨_, rfl⟩
      · exact ⟨_, rfl⟩
      · exact ⟨_, rfl⟩
    obtain ⟨s, rfl⟩ := hx
    rw [← hfdb]
    exact (hfr.iff s y).2 ⟨v, q, hv, he⟩
  · intro k n b hg hb
    obtain ⟨h1, h2⟩ := given_lt k n hg
    have h3 : n < 2 ^ 64 := Nat.lt_trans h2 (by decide)
    rw [(be64_iff h3 b).1 hb]
    refine ⟨(hmine _).trans h1, ?_⟩
    obtain ⟨k', hk'⟩ := Option.ne_none_iff_exists'.1 (hids k n h2 h1)
    have hsplit : ascii "5ids" ++ u64tob n = 53 :: (ascii "ids" ++ u64tob n) := rfl
    rw [hsplit] at hk'
    refine ⟨k', ?_, (hmine _).trans hk'⟩
    rcases entry_w _ k' hk' with ⟨h | h, m, rfl⟩ | ⟨k2, m, hg2, ⟨h, rfl⟩ | ⟨h, rfl⟩⟩
    · exact absurd h (hN.i_ne_0 n)
    · exact absurd h (hN.i_ne_s n)
    · exact absurd h.symm (hN.k_ne_i k2 n h2)
    · have : n = m := Tr.u64tob_ids_inj (p := ascii "5ids") h3 (Nat.lt_trans (given_lt _ m hg2).2 (by decide)) h
      exact this ▸ hg2
  · obtain ⟨n, hn⟩ := hseq
    obtain ⟨m, hm⟩ := be64_some n
    exact ⟨m, _, hm, hddb.symm.trans hn⟩
  · have hne : w0.db (ascii "5seq") ≠ none := by rw [Option.some.inj hw0']; dsimp only; rw [Tr.KV.set_same]; exact fun h => (nomatch h)
    obtain ⟨y, hy⟩ := Option.ne_none_iff_exists'.1 (hkeep _ hne)
    have hy' : w.db (53 :: ascii "seq") = some y := hy
    obtain ⟨n, rfl⟩ : ∃ n, y = u64tob n := by
      rcases entry_w _ y hy' with ⟨-, h⟩ | ⟨k2, m, -, ⟨h, -⟩ | ⟨h, -⟩⟩
      · exact h
      · exact absurd h.symm (hN.k_ne_0 k2)
      · exact absurd h.symm (hN.i_ne_0 m)
    obtain ⟨m, hm⟩ := be64_some n
    exact ⟨m, _, hm, (hmine _).trans hy'⟩

/-- Not vacuous: of the history `someOps`. -/
theorem someOps_layout : ∃ db os, history Tr.deployed 1000 KV.empty someOps = some (db, os) ∧ Given os [1] 0 ∧
    db (ascii "5idss" ++ [1]) = some [0, 0, 0, 0, 0, 0, 0, 0] ∧ db (ascii "5ids" ++ [0, 0, 0, 0, 0, 0, 0, 0]) = some [1] ∧
    db (ascii "sets_traces_std_1970") = some [3] ∧ db (ascii "sets_traces_std_1971") = none := by
  have h : (history Tr.deployed 1000 KV.empty someOps).isSome = true := by decide +kernel
  obtain ⟨⟨db, os⟩, ho⟩ := Option.isSome_iff_exists.1 h
  have hg : (history Tr.deployed 1000 KV.empty someOps).map (fun r => (dictOuts r.2).any fun a => match a with | .translated [1] 0 => true | _ => false) = some true := by decide +kernel
  have h1 : (history Tr.deployed 1000 KV.empty someOps).map (fun r => (r.1 (ascii "5idss" ++ [1]), r.1 (ascii "5ids" ++ [0, 0, 0, 0, 0, 0, 0, 0]),
    r.1 (ascii "sets_traces_std_1970"), r.1 (ascii "sets_traces_std_1971"))) = some (some [0, 0, 0, 0, 0, 0, 0, 0], some [1], some [3], none) := by decide +kernel
  rw [ho] at h1 hg
  have h2 := Option.some.inj h1
  simp only [Prod.mk.injEq] at h2
  refine ⟨db, os, ho, ?_, h2⟩
  obtain ⟨a, ha, hb⟩ := List.any_eq_true.1 (Option.some.inj hg)
  split at hb
  · exact ha
  · cases hb

end Verif.Shr
