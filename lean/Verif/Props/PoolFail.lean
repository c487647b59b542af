import Verif.Lemmas.PoolFail
import Verif.Props.Pool
/-!
# Databases that fail

C83: a request stops at the first access to a database that fails, says so (with one exception), and has written nothing that it should not.
-/
namespace Verif
open Pl
open St (Scan Env Result Flush Outcome Store)

/-- **C83.** Among any others, with any answers: a flush first translates, then updates views, then the index. It goes on only while everything is answered; where a translation fails the process
exits, where anything else fails the flush returns an error; so it returns success only if nothing failed. No table that it writes loses the rows that it read. -/
theorem C83_flush {js : List Job} (hj : ∀ j ∈ js, j.Ok) {ls : List (Step Ask Ans Out)} {t : Nat} {log : List (Ask × Ans)} {out : Out} (h : Ended js ls t log out)
    {r : Int} {fl : Flush} (ht : js[t]? = some (.flush r fl)) :
    ∃ o r', out = .flushed o r' ∧
      (∃ a b c, log = a ++ b ++ c ∧ (∀ x ∈ a, ∃ k, x.1 = .translate k) ∧ (∀ x ∈ b, x.1.base = .frame) ∧ (∀ x ∈ c, ∃ k ws, x.1 = .index k ws)) ∧
      (∀ x ∈ log.dropLast, Went x.1 x.2 = true) ∧
      (∀ x ∈ log, Went x.1 x.2 = false → o = if x.1.base = .dict then .exit else .err) ∧
      (o = .exit → ∀ x ∈ log, ∃ k, x.1 = .translate k) ∧
      Kept log := by
  obtain ⟨l, hl⟩ := h.alone hj ht
  have hL : (Job.prog (.flush r fl)).Logs fun log out => ∃ o r', out = .flushed o r' ∧ FlushLog o log :=
    logs_seq (flush_logs r fl) fun log o h => logs_pure ⟨o.1, o.2, rfl, by rw [List.append_nil]; exact h⟩
  obtain ⟨o, r', e, h⟩ := logs_alone _ _ _ _ _ hL hl
  exact ⟨o, r', e, h.parts, h.stop, h.bad, h.exit, h.kept⟩

/-- **C83.** Among any others, with any answers: a scan looks up keys, then reads the index, then the tables, and changes nothing. It goes on only while everything is answered; where the dictionary or the index
fails it returns an error, and where a table fails it returns no data and no error. -/
theorem C83_scan {js : List Job} (hj : ∀ j ∈ js, j.Ok) {ls : List (Step Ask Ans Out)} {t : Nat} {log : List (Ask × Ans)} {out : Out} (h : Ended js ls t log out)
    {E : Env} {sc : Scan} (ht : js[t]? = some (.scan E sc)) :
    ∃ r, out = .result r ∧ (∀ x ∈ log, x.1.reads = true) ∧
      (∃ a b c, log = a ++ b ++ c ∧ (∀ x ∈ a, x.1.base = .dict) ∧ (∀ x ∈ b, x.1.base = .index) ∧ (∀ x ∈ c, x.1.base = .frame)) ∧
      (∀ x ∈ log.dropLast, Went x.1 x.2 = true) ∧
      (∀ x ∈ log, Went x.1 x.2 = false → r = if x.1.base = .frame then .data none else .err) := by
  obtain ⟨l, hl⟩ := h.alone hj ht
  have hL : (Job.prog (.scan E sc)).Logs fun log out => ∃ r, out = .result r ∧ ScanLog r log :=
    logs_seq (scan_logs E sc) fun log r h => logs_pure ⟨r, rfl, by rw [List.append_nil]; exact h⟩
  obtain ⟨r, e, h⟩ := logs_alone _ _ _ _ _ hL hl
  exact ⟨r, e, h.reads, h.parts, h.stop, h.bad⟩

/-- The value that badger found. -/
def Pl.found? : TAns → Option Bytes
  | .value v => some v
  | _ => none

/-- **C83.** The dictionary, with any answers of badger. A translation goes on only while everything is answered, and returns an error exactly if something failed. To find keys of ids, each must be there: it hands over
the keys that it found before the first that is not, and returns an error exactly if there is one. -/
theorem C83_dictionary {js : List TJob} {ls : List (Step TAsk TAns TOut)} (hs : spawned ls = js.map TJob.prog) {v : World TAsk TAns TOut} (h : run {} ls = some v) {t : Nat}
    {th : Thread TAsk TAns TOut} (hth : v.threads[t]? = some th) {out : TOut} (hd : th.prog = .done out) :
    (∀ keys ids key, js[t]? = some (.key keys ids key) →
      (∀ x ∈ th.log.dropLast, TWent x.1 x.2 = true) ∧ (out = .err ↔ ∃ x ∈ th.log, TWent x.1 x.2 = false)) ∧
    (∀ ids id, js[t]? = some (.id ids id) → ∃ a, th.log = [(.get (ids ++ u64tob id), a)] ∧ out = match found? a with | some k => .key k | none => .err) ∧
    (∀ ids l, js[t]? = some (.bulk ids l) → ∃ ok, out = .keys (th.log.filterMap fun x => found? x.2) ok ∧
      (∀ x ∈ th.log.dropLast, (found? x.2).isSome) ∧ (ok = true ↔ ∀ x ∈ th.log, (found? x.2).isSome) ∧ (ok = true → th.log.length = l.length)) := by
  have hal : ∀ j, js[t]? = some j → ∃ l, Pl.alone replay j.prog th.log {} = some (out, [], l) := by
    intro j hj
    refine C75_as_if_alone ls ?_ h (by rw [hs]; simp [hj]) hth hd
    rw [hs]
    intro p hp
    obtain ⟨j, -, rfl⟩ := List.mem_map.mp hp
    exact C75_translators_proper j
  have hv : ∀ a, TAns.value? a = found? a := fun a => by cases a <;> rfl
  refine ⟨fun keys ids key hj => ?_, fun ids id hj => ?_, fun ids l hj => ?_⟩ <;> obtain ⟨lo, hl⟩ := hal _ hj
  · obtain ⟨h1, h2⟩ := logs_alone _ _ _ _ _ (translateKey_logs keys ids key) hl
    refine ⟨h1.stop, h2, ?_⟩
    rintro ⟨x, hx, hf⟩
    by_cases he : out = .err
    · exact he
    · rw [h1.ok (by simp [he]) x hx] at hf; cases hf
  · cases hlog : th.log with
    | nil => rw [hlog] at hl; simp [TJob.prog, translateID, take, use, give, ask, Prog.bind_eq, Prog.bind, alone, replay, Own.add, Own.set] at hl
    | cons x log =>
      obtain ⟨q, a⟩ := x
      rw [hlog] at hl
      simp only [TJob.prog, translateID, take, use, give, ask, Prog.bind_eq, Prog.bind, alone, replay, Own.add, Own.set, if_pos, fresh, Obj.write] at hl
      by_cases hq : q = TAsk.get (ids ++ u64tob id)
      · subst hq
        rw [if_pos (by simp [Obj.bytes])] at hl
        refine ⟨a, ?_, ?_⟩ <;> cases a <;> simp [Prog.pure_eq, alone] at hl <;> simp [found?, hl.1, hl.2.1]
      · rw [if_neg (by simpa [Obj.bytes] using hq)] at hl; cases hl
  · have hL : (TJob.prog (.bulk ids l)).Logs fun log out => ∃ ok, out = .keys (log.filterMap fun x => found? x.2) ok ∧
        (∀ x ∈ log.dropLast, (found? x.2).isSome) ∧ (ok = true ↔ ∀ x ∈ log, (found? x.2).isSome) ∧ (ok = true → log.length = l.length) := by
      refine logs_take fun g => logs_seq (bulkLoop_logs ids g l) ?_
      rintro log r ⟨_, rfl, h1, h2, h3, h4⟩
      simp only [hv] at h1 h2 h3
      refine logs_give (logs_pure ?_)
      rw [List.append_nil]
      exact ⟨r.2, by rw [h1], h2, h3, h4⟩
    exact logs_alone _ _ _ _ _ hL hl

/-! ## Examples

Every job can be run on databases that answer as one likes (`C75_jobs_happen`). Here all do, but for one kind of question. -/
namespace PoolFailExample
open PoolExample

/-- Everything is there; `bad` fails. -/
def answer (bad : Ask → Bool) (q : Ask) : Ans :=
  if bad q then .failed else match q with
  | .find _ | .translate _ => .id 7
  | .shard _ | .view _ | .write .. | .index .. => .found
  | .rows .. | .ids .. => .bits [3]
  | .table _ => .table [.none, .none, .none, record]

/-- A job alone. -/
def outcome (bad : Ask → Bool) (p : P Out) : Option (Out × Nat) := (alone (fun (n : Nat) q => some (answer bad q, n + 1)) p 0 {}).map fun x => (x.1, x.2.1)

def sample : Sample := { id := 4, data := record, minTs := 50, maxTs := 50 }
def fl : Flush := { samples := [sample], commits := 0 }
/-- Which outcome. -/
def isOk : Out → Nat
  | .flushed .ok _ => 0
  | .flushed .err _ => 1
  | .flushed .exit _ => 2
  | .result (.data none) => 3
  | .result (.data (some _)) => 4
  | .result .err => 5
  | .result _ => 6

def E : Env := { clock := 0, vbr := fun _ _ _ => [[1]], P := ⟨fun _ => 0, fun _ => []⟩ }
def flushed (bad : Ask → Bool) : Option (Nat × Nat) := (outcome bad (Job.prog (.flush 0 fl))).map fun x => (isOk x.1, x.2)
def scanned (bad : Ask → Bool) : Option (Nat × Nat) := (outcome bad (Job.prog (.scan E (wants [2])))).map fun x => (isOk x.1, x.2)

/-! Outcome (`isOk`) and number of questions. -/
example : (flushed fun _ => false) = some (0, 27) := by decide +kernel
example : (flushed fun | .translate _ => true | _ => false) = some (2, 1) := by decide +kernel
example : (flushed fun | .table _ => true | _ => false) = some (1, 4) := by decide +kernel
example : (flushed fun | .write .. => true | _ => false) = some (1, 8) := by decide +kernel
example : (flushed fun | .index .. => true | _ => false) = some (1, 27) := by decide +kernel
example : (scanned fun _ => false) = some (4, 6) := by decide +kernel
example : (scanned fun | .find _ => true | _ => false) = some (5, 1) := by decide +kernel
example : (scanned fun | .rows .. => true | _ => false) = some (5, 3) := by decide +kernel
example : (scanned fun | .table .. => true | _ => false) = some (3, 6) := by decide +kernel

end PoolFailExample

end Verif
