import Verif.Spec.PoolJobs
import Verif.Lemmas.PoolFlush
import Verif.Lemmas.PoolTrim
import Verif.Lemmas.PoolTranslate
/-!
# Recycled objects

C75: whatever objects the pools hand out, and however goroutines interleave, everyone computes what it would have computed with new objects of its own.
-/
namespace Verif
open Pl
open St (Scan Env Result Flush Outcome Store)

section
variable {Q A α : Type} [DecidableEq Q]

/-- **C75.** Any number of goroutines take objects out of the shared pools, use them and put them back, in any interleaving, with any choice of what `Get` returns, with pools that
are emptied at any moment, and with any answers from the databases. Then what each of them returns is what its program returns alone: with new objects, never anybody else's, and with the same answers. -/
theorem C75_as_if_alone (ls : List (Step Q A α)) (hp : ∀ p ∈ spawned ls, p.Proper) {w : World Q A α} (h : run {} ls = some w) {t : Nat} {p : Prog Q A α} (ht : (spawned ls)[t]? = some p)
    {th : Thread Q A α} (hth : w.threads[t]? = some th) {a : α} (hd : th.prog = .done a) : ∃ l, alone replay p th.log {} = some (a, [], l) := by
  obtain ⟨gs, hi, hg⟩ := inv_run ls inv_start hp h
  simp only [List.map_nil, List.nil_append] at hg
  have h1 : (gs.map (·.1))[t]? = some p := by rw [hg]; exact ht
  rw [List.getElem?_map] at h1
  cases hgt : gs[t]? with
  | none => rw [hgt] at h1; cases h1
  | some g =>
    rw [hgt] at h1
    have hs := (hi.th t g th hgt hth).same []
    have e : g.1 = p := by simpa using h1
    rw [List.append_nil, hd, e] at hs
    exact ⟨g.2, hs⟩

omit [DecidableEq Q] in
theorem Pl.run_append : ∀ (xs : List (Step Q A α)) (ys : List (Step Q A α)) (w0 : World Q A α), run w0 (xs ++ ys) = (run w0 xs).bind fun w1 => run w1 ys := by
  intro xs ys
  induction xs with
  | nil => intro w0; rfl
  | cons x xs ih =>
    intro w0
    simp only [List.cons_append, run]
    cases step w0 x with
    | none => rfl
    | some w1 => exact ih w1

omit [DecidableEq Q] in
theorem Pl.spawned_append_go : ∀ (xs ys : List (Step Q A α)), (∀ y ∈ ys, ∃ t pick a, y = .go t pick a) → spawned (xs ++ ys) = spawned xs := by
  intro xs ys h
  induction xs with
  | nil =>
    induction ys with
    | nil => rfl
    | cons y ys ih =>
      obtain ⟨t, pick, a, rfl⟩ := h y (by simp)
      exact ih fun y hy => h y (by simp [hy])
  | cons x xs ih => cases x <;> simp [spawned, ih]

/-- **C75.** No goroutine is ever stuck: one that has not ended can go on, whatever the answer to its question. -/
theorem C75_never_stuck (ls : List (Step Q A α)) (hp : ∀ p ∈ spawned ls, p.Proper) {w : World Q A α} (h : run {} ls = some w) {t : Nat}
    {th : Thread Q A α} (hth : w.threads[t]? = some th) (hd : ∀ a, th.prog ≠ .done a) (a : A) : ∃ w', run {} (ls ++ [.go t none a]) = some w' := by
  rw [run_append, h]
  obtain ⟨gs, hi, hg⟩ := inv_run ls inv_start hp h
  obtain ⟨g, hgt⟩ : ∃ g, gs[t]? = some g := ⟨_, List.getElem?_eq_getElem (by rw [hi.len]; exact lt_of_get hth)⟩
  have hk := hi.th t g th hgt hth
  have he := hk.ends
  simp only [Option.bind_some, run, step, hth, Thread.step]
  cases hprog : th.prog with
  | done a => exact absurd hprog (hd a)
  | get κ k => exact ⟨_, rfl⟩
  | act r f k =>
    rw [hprog] at he
    obtain ⟨o, ho, -⟩ := he
    obtain ⟨e, h1, h2⟩ := hk.at_ r o ho
    simp only [h1, h2]; exact ⟨_, rfl⟩
  | put r k =>
    rw [hprog] at he
    obtain ⟨o, ho, -⟩ := he
    obtain ⟨e, h1, h2⟩ := hk.at_ r o ho
    simp only [h1, h2]; exact ⟨_, rfl⟩
  | ask q k => exact ⟨_, rfl⟩

/-- **C75.** At any moment, and whoever answers from then on, each goroutine ends after finitely many steps of its own. -/
theorem C75_finishes {σ : Type} (f : σ → Q → A × σ) (a0 : A) {t : Nat} : ∀ (p : Prog Q A α) (s : σ) (ls : List (Step Q A α)) (_ : ∀ p ∈ spawned ls, p.Proper) {w : World Q A α} (_ : run {} ls = some w)
    {th : Thread Q A α} (_ : w.threads[t]? = some th) (_ : th.prog = p),
    ∃ ls' w' th' a log s', (∀ x ∈ ls', ∃ b, x = .go t none b) ∧ run {} (ls ++ ls') = some w' ∧ w'.threads[t]? = some th' ∧ th'.prog = .done a ∧ th'.log = th.log ++ log ∧
      Obeys (fun s q a s' => (a, s') = f s q) s log s' := by
  intro p
  have one : ∀ (ls : List (Step Q A α)) (w : World Q A α) (th : Thread Q A α) (b : A) (x : List Obj × List Nat × Thread Q A α), run {} ls = some w → w.threads[t]? = some th → th.step w none b = some x →
      run {} (ls ++ [.go t none b]) = some { objs := x.1, free := x.2.1, threads := w.threads.set t x.2.2 } ∧ (w.threads.set t x.2.2)[t]? = some x.2.2 := by
    intro ls w th b x h1 h2 h3
    rw [run_append, h1]
    simp only [Option.bind_some, run, step, h2, h3]
    exact ⟨trivial, by rw [List.getElem?_set, if_pos rfl, if_pos (lt_of_get h2)]⟩
  have more : ∀ (ls : List (Step Q A α)) (b : A), (∀ p ∈ spawned ls, p.Proper) → ∀ p ∈ spawned (ls ++ [.go t none b]), p.Proper := by
    intro ls b h
    rw [spawned_append_go _ _ (by simp)]; exact h
  have cons : ∀ {b : A} {ls' : List (Step Q A α)}, (∀ x ∈ ls', ∃ b, x = .go t none b) → ∀ x ∈ Step.go t none b :: ls', ∃ b, x = .go t none b := by
    intro b ls' h x hx
    rcases List.mem_cons.mp hx with rfl | hx
    · exact ⟨b, rfl⟩
    · exact h x hx
  induction p with
  | done a => intro s ls hp w h th hth hd; exact ⟨[], w, th, a, [], s, by simp, by simpa using h, hth, hd, by simp, rfl⟩
  | get κ k ih =>
    intro s ls hp w h th hth hd
    have hst : th.step w none a0 = some (w.objs ++ [fresh κ], w.free, { th with prog := k th.held.length, held := th.held ++ [w.objs.length] }) := by simp only [Thread.step, hd]
    obtain ⟨h1, h2⟩ := one ls w th a0 _ h hth hst
    obtain ⟨ls', w', th', a, log, s', e1, e2, e3⟩ := ih _ s _ (more ls a0 hp) h1 h2 rfl
    exact ⟨Step.go t none a0 :: ls', w', th', a, log, s', cons e1, (by rw [List.append_cons]; exact e2), e3⟩
  | act r f' k ih =>
    intro s ls hp w h th hth hd
    obtain ⟨gs, hi, hg⟩ := inv_run ls inv_start hp h
    obtain ⟨g, hgt⟩ : ∃ g, gs[t]? = some g := ⟨_, List.getElem?_eq_getElem (by rw [hi.len]; exact lt_of_get hth)⟩
    have hk := hi.th t g th hgt hth
    have he := hk.ends
    rw [hd] at he
    obtain ⟨o, ho, -⟩ := he
    obtain ⟨e, e1, e2⟩ := hk.at_ r o ho
    have hst : th.step w none a0 = some (w.objs.set e (f' o), w.free, { th with prog := k o }) := by simp only [Thread.step, hd, e1, e2]
    obtain ⟨h1, h2⟩ := one ls w th a0 _ h hth hst
    obtain ⟨ls', w', th', a, log, s', e1, e2, e3⟩ := ih _ s _ (more ls a0 hp) h1 h2 rfl
    exact ⟨Step.go t none a0 :: ls', w', th', a, log, s', cons e1, (by rw [List.append_cons]; exact e2), e3⟩
  | put r k ih =>
    intro s ls hp w h th hth hd
    obtain ⟨gs, hi, hg⟩ := inv_run ls inv_start hp h
    obtain ⟨g, hgt⟩ : ∃ g, gs[t]? = some g := ⟨_, List.getElem?_eq_getElem (by rw [hi.len]; exact lt_of_get hth)⟩
    have hk := hi.th t g th hgt hth
    have he := hk.ends
    rw [hd] at he
    obtain ⟨o, ho, -⟩ := he
    obtain ⟨e, e1, e2⟩ := hk.at_ r o ho
    have hst : th.step w none a0 = some (w.objs.set e o.release, e :: w.free, { th with prog := k }) := by simp only [Thread.step, hd, e1, e2]
    obtain ⟨h1, h2⟩ := one ls w th a0 _ h hth hst
    obtain ⟨ls', w', th', a, log, s', e1, e2, e3⟩ := ih s _ (more ls a0 hp) h1 h2 rfl
    exact ⟨Step.go t none a0 :: ls', w', th', a, log, s', cons e1, (by rw [List.append_cons]; exact e2), e3⟩
  | ask q k ih =>
    intro s ls hp w h th hth hd
    have hst : th.step w none (f s q).1 = some (w.objs, w.free, { th with prog := k (f s q).1, log := th.log ++ [(q, (f s q).1)] }) := by simp only [Thread.step, hd]
    obtain ⟨h1, h2⟩ := one ls w th _ _ h hth hst
    obtain ⟨ls', w', th', a, log, s', e1, e2, e3, e4, e5, e6⟩ := ih _ (f s q).2 _ (more ls _ hp) h1 h2 rfl
    exact ⟨Step.go t none (f s q).1 :: ls', w', th', a, (q, (f s q).1) :: log, s', cons e1, (by rw [List.append_cons]; exact e2), e3, e4, (by rw [e5]; simp), ⟨_, rfl, e6⟩⟩

end

/-- **C75.** Scans, flushes and trimmings use pooled objects properly: whatever the databases answer, only objects that they have taken and not put back, and what they put back is as new. -/
theorem C75_jobs_proper (j : Job) (hj : j.Ok) : j.prog.Proper := by
  cases j with
  | scan E sc =>
    exact ends_seq (scan_ends listDict (St.Store.start [] (fun _ => none) []) E hj anything sc {}) fun _ _ _ _ => ends_pure trivial
  | flush r fl =>
    exact ends_seq (ends_anything (R := track listDict) (fun _ _ _ => ⟨none, .inl rfl⟩) _ _ _ (flush_ends listDict r fl {} none)) fun _ _ _ _ => ends_pure trivial
  | trim H clock a r => exact ends_seq (jsScan_ends H anything () clock a r {}) fun _ _ _ _ => ends_pure trivial

/-- **C75.** So do the functions of the dictionary. -/
theorem C75_translators_proper (j : TJob) : j.prog.Proper := by
  cases j with
  | key keys ids key => exact ends_anything trackT_total _ _ _ (translateKey_ends keys ids key {} none)
  | id ids id => exact ends_anything trackT_total _ _ _ (translateID_ends ids id {} none)
  | bulk ids l => exact ends_anything trackT_total _ _ _ (translateBulk_ends ids l {} none)

/-- A goroutine of a process that runs these jobs has ended with `out` after these questions and answers. -/
def Pl.Ended (js : List Job) (ls : List (Step Ask Ans Out)) (t : Nat) (log : List (Ask × Ans)) (out : Out) : Prop :=
  spawned ls = js.map Job.prog ∧ ∃ w th, run {} ls = some w ∧ w.threads[t]? = some th ∧ th.prog = .done out ∧ th.log = log

theorem Pl.Ended.alone {js : List Job} {ls : List (Step Ask Ans Out)} {t : Nat} {log : List (Ask × Ans)} {out : Out} (h : Ended js ls t log out) (hj : ∀ j ∈ js, j.Ok) {j : Job}
    (ht : js[t]? = some j) : ∃ l, Pl.alone replay j.prog log {} = some (out, [], l) := by
  obtain ⟨hs, w, th, h1, h2, h3, rfl⟩ := h
  refine C75_as_if_alone ls ?_ h1 (by rw [hs]; simp [ht]) h2 h3
  rw [hs]
  intro p hp
  obtain ⟨j, h4, rfl⟩ := List.mem_map.mp hp
  exact C75_jobs_proper j (hj j h4)

variable {σ : Type} (D : Dict σ)

/-- **C75.** Among any others, a scan that is answered from the store `s` returns what `s` returns to it. -/
theorem C75_scan (s : Store σ) {js : List Job} (hj : ∀ j ∈ js, j.Ok) {ls : List (Step Ask Ans Out)} {t : Nat} {log : List (Ask × Ans)} {out : Out} (h : Ended js ls t log out)
    {E : Env} {sc : Scan} (ht : js[t]? = some (.scan E sc)) (ha : ∀ x ∈ log, x.2 = dbAnswer D s E x.1) : out = .result (St.scan D s E sc) := by
  obtain ⟨l, hl⟩ := h.alone hj ht
  have hp : ∀ m, (E.colOrder m).Perm m := hj _ (List.mem_of_getElem? ht)
  have hE : (Job.prog (.scan E sc)).Ends (fun _ q a _ => a = dbAnswer D s E q) () {} fun r _ _ => r = .result (St.scan D s E sc) :=
    ends_seq (scan_ends D s E hp _ sc {}) fun r _ _ hr => ends_pure (congrArg Out.result (hr.2 fun _ _ h => h))
  exact ends_alone _ _ () _ _ _ _ hE (obeys_mem log ha) hl

/-- **C75.** Among any others, a flush that is answered by the databases of the store `S` (which change as it writes) ends as `S` says, and leaves in the databases what `S` says. -/
theorem C75_flush (S : Store σ) {js : List Job} (hj : ∀ j ∈ js, j.Ok) {ls : List (Step Ask Ans Out)} {t : Nat} {log : List (Ask × Ans)} {out : Out} (h : Ended js ls t log out)
    {r : Int} {fl : Flush} (ht : js[t]? = some (.flush r fl)) {w w' : Dbs σ} (hw : Holds w S r) (hc : fl.commits = w.commits)
    (ha : Obeys (fun w q a w' => (a, w') = flushAnswer D w q) w log w') :
    ∃ r', out = .flushed (St.saveSamples D S fl).2 r' ∧ ((St.saveSamples D S fl).2 ≠ .exit → Holds w' (St.saveSamples D S fl).1 r') := by
  obtain ⟨l, hl⟩ := h.alone hj ht
  have hE : (Job.prog (.flush r fl)).Ends (track D) (some w) {} fun o s' _ => ∀ w', s' = some w' →
      ∃ r', o = .flushed (St.saveSamples D S fl).2 r' ∧ ((St.saveSamples D S fl).2 ≠ .exit → Holds w' (St.saveSamples D S fl).1 r') := by
    refine ends_seq (flush_ends D r fl {} (some w)) fun o s' _ ho => ends_pure fun w' hs => ?_
    obtain ⟨w1, h1, h2⟩ := ho w' hs
    cases h1
    obtain ⟨h3, h4⟩ := h2 S hw hc
    rw [h3]
    exact ⟨o.2, rfl, h4⟩
  have hO : ∀ (log : List (Ask × Ans)) (w w' : Dbs σ), Obeys (fun w q a w' => (a, w') = flushAnswer D w q) w log w' → Obeys (track D) (some w) log (some w') := by
    intro log
    induction log with
    | nil => intro w w' h; exact congrArg some h
    | cons x log ih =>
      rintro w w' ⟨w1, h1, h2⟩
      exact ⟨some w1, .inr ⟨w, rfl, congrArg Prod.fst h1, congrArg some (congrArg Prod.snd h1)⟩, ih _ _ h2⟩
  exact ends_alone _ _ (some w') _ _ _ _ hE (hO _ _ _ ha) hl w' rfl

/-- **C75.** Among any others, the trimming of `r` gives what `Scan` gives to a script. -/
theorem C75_trim {js : List Job} (hj : ∀ j ∈ js, j.Ok) {ls : List (Step Ask Ans Out)} {t : Nat} {log : List (Ask × Ans)} {out : Out} (h : Ended js ls t log out)
    {H : Vs.Hashes} {clock : Int} {a : Scan} {r : Result} (ht : js[t]? = some (.trim H clock a r)) : out = .result (Js.jsScan H (some fun _ => r) clock a) := by
  obtain ⟨l, hl⟩ := h.alone hj ht
  have hE : (Job.prog (.trim H clock a r)).Ends anything () {} fun o _ _ => o = .result (Js.jsScan H (some fun _ => r) clock a) :=
    ends_seq (jsScan_ends H anything () clock a r {}) fun r _ _ hr => ends_pure (congrArg Out.result hr.2)
  exact ends_alone _ _ () _ _ _ _ hE (obeys_mem log fun _ _ => trivial) hl

/-- **C75.** Among any others, a call of the dictionary that its database answers returns what the dictionary `w` returns, and leaves the database as `w` says. -/
theorem C75_translate {js : List TJob} {ls : List (Step TAsk TAns TOut)} (hs : spawned ls = js.map TJob.prog) {v : World TAsk TAns TOut} (h : run {} ls = some v) {t : Nat}
    {th : Thread TAsk TAns TOut} (hth : v.threads[t]? = some th) {out : TOut} (hd : th.prog = .done out) {w w' : Tr.World}
    (ha : Obeys (fun w q a w' => (a, w') = badgerAnswer w q) w th.log w') :
    (∀ key, js[t]? = some (.key w.tr.keys w.tr.ids key) → ∀ w2 n, Tr.translateKey w key = some (w2, n) → out = .id n ∧ w' = w2) ∧
    (∀ id, js[t]? = some (.id w.tr.ids id) → w' = w ∧ out = match w.db (w.tr.ids ++ u64tob id) with | none => .err | some k => .key k) ∧
    (∀ ids, js[t]? = some (.bulk w.tr.ids ids) → w' = w ∧ out = .keys (Tr.bulkKeys w.db w.tr.ids ids).1 (Tr.bulkKeys w.db w.tr.ids ids).2) := by
  have hal : ∀ j, js[t]? = some j → ∃ l, Pl.alone replay j.prog th.log {} = some (out, [], l) := by
    intro j hj
    refine C75_as_if_alone ls ?_ h (by rw [hs]; simp [hj]) hth hd
    rw [hs]
    intro p hp
    obtain ⟨j, -, rfl⟩ := List.mem_map.mp hp
    exact C75_translators_proper j
  have hO := obeys_trackT _ _ _ ha
  refine ⟨fun key hj w2 n hw => ?_, fun id hj => ?_, fun ids hj => ?_⟩ <;> obtain ⟨l, hl⟩ := hal _ hj
  · obtain ⟨w0, h1, h2⟩ := ends_alone _ _ _ _ _ _ _ (translateKey_ends _ _ key {} (some w)) hO hl w' rfl
    cases h1
    have h3 := h2 rfl rfl
    simp only [TranslateSpec, hw] at h3
    exact h3
  · obtain ⟨h1, h2⟩ := ends_alone _ _ _ _ _ _ _ (translateID_ends _ id {} (some w)) hO hl w' rfl
    cases h1
    exact ⟨rfl, h2 rfl⟩
  · obtain ⟨h1, h2⟩ := ends_alone _ _ _ _ _ _ _ (translateBulk_ends _ ids {} (some w)) hO hl w' rfl
    cases h1
    exact ⟨rfl, h2⟩

/-- Every job can be run on any databases, so the theorems above say something about each: the goroutine ends, with answers from these. -/
theorem C75_jobs_happen {σ : Type} (f : σ → Ask → Ans × σ) (s : σ) (j : Job) (hj : j.Ok) :
    ∃ ls log out s', Ended [j] ls 0 log out ∧ Obeys (fun s q a s' => (a, s') = f s q) s log s' := by
  have hp : ∀ p ∈ spawned [Step.spawn (A := Ans) j.prog], p.Proper := by
    intro p hp
    simp only [spawned, List.mem_singleton] at hp
    rw [hp]; exact C75_jobs_proper j hj
  obtain ⟨ls', w', th', a, log, s', e1, e2, e3, e4, e5, e6⟩ := C75_finishes f default (t := 0) j.prog s [.spawn j.prog] hp rfl (th := { prog := j.prog }) rfl rfl
  refine ⟨_, log, a, s', ⟨?_, w', th', e2, e3, e4, by simpa using e5⟩, e6⟩
  rw [spawned_append_go _ _ fun y hy => by obtain ⟨b, rfl⟩ := e1 y hy; exact ⟨_, _, _, rfl⟩]
  rfl

/-! ## Examples -/

/-- `C75_scan` and `C75_flush` apply to runs on any store. -/
example (D : Dict σ) (s : Store σ) (E : Env) (sc : Scan) (hE : ∀ m, (E.colOrder m).Perm m) : ∃ ls log out, Ended [.scan E sc] ls 0 log out ∧ out = .result (St.scan D s E sc) := by
  obtain ⟨ls, log, out, s', h1, h2⟩ := C75_jobs_happen (fun _ q => (dbAnswer D s E q, ())) () (.scan E sc) hE
  refine ⟨ls, log, out, h1, C75_scan D s (by simpa [Job.Ok] using hE) h1 rfl ?_⟩
  clear h1
  induction log with
  | nil => simp
  | cons x log ih =>
    obtain ⟨s1, h3, h4⟩ := h2
    intro y hy
    rcases List.mem_cons.mp hy with rfl | hy
    · exact congrArg Prod.fst h3
    · exact ih h4 y hy

example (D : Dict σ) (S : Store σ) (hS : S.ctx.batch = Bt.Batch.new) (fl : Flush) :
    ∃ ls log out r', Ended [.flush S.ctx.resource fl] ls 0 log out ∧ out = .flushed (St.saveSamples D S fl).2 r' := by
  obtain ⟨ls, log, out, w', h1, h2⟩ := C75_jobs_happen (flushAnswer D) ⟨S.ctx.st, S.frame, S.idx, fl.commits⟩ (.flush S.ctx.resource fl) trivial
  obtain ⟨r', h3, -⟩ := C75_flush D S (by simp [Job.Ok]) h1 rfl ⟨rfl, rfl, hS, rfl, rfl⟩ rfl h2
  exact ⟨ls, log, out, r', h1, h3⟩

namespace PoolExample

/-- Two scripts read the same log record, one asks for an attribute that it has, the other for one that it has not. -/
def record : Data := .logs [{ resource := some { attrs := [⟨[1], some (.str [2])⟩] }, scopes := [{ items := [{ ts := 50 }] }] }]
def wants (v : Bytes) : Scan := { scope := Res.logs, filters := [.attr Pfx.resourceAttributes [1] v], time := { range := some (0, 100) } }
def H : Vs.Hashes := ⟨fun b => b.foldl (fun n x => n * 10 + x.toNat) 0, fun b => b.foldl (fun n x => n * 10 + x.toNat) 0⟩
def jobs : List Job := [.trim H 0 (wants [2]) (.data (some record)), .trim H 0 (wants [3]) (.data (some record))]

/-- The first goroutine runs until it has put its bitmap back, the second takes it out of the pool, and both go on. -/
def schedule : List (Step Ask Ans Out) :=
  jobs.map (fun j => .spawn j.prog) ++ List.replicate 8 (.go 0 none default) ++ List.replicate 4 (.go 1 none default) ++ List.replicate 2 (.go 1 (some 0) default) ++
    List.replicate 3 (.go 0 none default) ++ List.replicate 3 (.go 1 none default)

/-- Both have had the same bitmap (object 1), and each has its own answer: one resource, and none. -/
example : (run {} schedule).map (fun w => (w.objs.length, w.threads.map fun t => (t.held, match t.prog with | .done (.result (.data (some (.logs l)))) => some l.length | _ => none))) =
    some (3, [([0, 1], some 1), ([2, 1], some 0)]) := by rfl
example : spawned schedule = jobs.map Job.prog := rfl
example : ∀ j ∈ jobs, j.Ok := by simp [jobs, Job.Ok]

/-! Not so with programs that are not proper. `keeper` reads a bitmap that it has put back; `twice` puts one back twice. -/

/-- Adds 7 to a bitmap, puts it back, and looks at it again. -/
def keeper : Prog Unit Unit Bm := do
  let b ← take .bitmap
  let _ ← use b (Obj.onBits fun x => x.add 7)
  give b
  let x ← look b
  pure x.bits
/-- Puts a bitmap back twice. -/
def twice : Prog Unit Unit Bm := do
  let b ← take .bitmap
  give b
  give b
  pure []
/-- A proper program: adds `n` to a bitmap and returns it. -/
def adder (n : Nat) : Prog Unit Unit Bm := do
  let b ← take .bitmap
  let _ ← use b (Obj.onBits fun x => x.add n)
  let x ← look b
  give b
  pure x.bits

theorem adder_proper (n : Nat) : (adder n).Proper :=
  ends_take (ends_use (Own.add_self ..) (ends_look (Own.set_self ..) (ends_give (Own.set_self ..) (release_fresh _ (by simp [Obj.kind, fresh, Obj.onBits])) (ends_pure trivial))))

theorem keeper_improper : ¬ keeper.Proper := by
  rintro ⟨o, ho, o', ho', -, o'', ho'', -⟩
  simp [Own.set] at ho''
end PoolExample

open PoolExample in
/-- Without `Proper` it is false: a program that reads a bitmap it has put back sees what another put there, and after a double `Put` two proper programs share a bitmap. -/
theorem C75_improper_refuted :
    (∃ (ls : List (Step Unit Unit Bm)) (w : World Unit Unit Bm), run {} ls = some w ∧ spawned ls = [keeper, adder 3] ∧ (w.threads.map (·.prog))[0]? = some (.done [3])) ∧
    (∃ (ls : List (Step Unit Unit Bm)) (w : World Unit Unit Bm), run {} ls = some w ∧ spawned ls = [twice, adder 3, adder 4] ∧ (w.threads.map (·.prog))[1]? = some (.done [3, 4])) := by
  refine ⟨⟨[.spawn keeper, .spawn (adder 3), .go 0 none (), .go 0 none (), .go 0 none (), .go 1 (some 0) (), .go 1 none (), .go 0 none ()], _, rfl, rfl, rfl⟩,
    ⟨[.spawn twice, .spawn (adder 3), .spawn (adder 4), .go 0 none (), .go 0 none (), .go 0 none (), .go 1 (some 0) (), .go 2 (some 0) (), .go 1 none (), .go 2 none (), .go 1 none (),
      .go 1 none ()], _, rfl, rfl, rfl⟩⟩

end Verif
