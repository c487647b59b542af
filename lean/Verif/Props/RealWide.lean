import Verif.Props.FirstLife
import Verif.Props.Lost
/-!
# C53 for the deployed program, with any number of labels

`Props/RealDict.lean` shows that the dictionary of the code keeps labels apart as long as no process needs more than one lease of ids.
Here nothing of the kind is assumed: labels may share numbers (C06). Scans then return what `answer` says, in which a sample has a label
asked for if it has one with the same number.
-/
namespace Verif.Cache
open Tr

variable {hash : Bytes → Nat} {c : Config} {K : List Bytes}

/-- The states of the dictionary of a process that translates keys of `K` only; ids do not run out. -/
structure WideState (hash : Bytes → Nat) (c : Config) (K : List Bytes) (s : CState) : Prop where
  stab : ∃ m, StabInv (names c.pfx c.spare) c.lease s.w m ∧ m + 2 * (K.length - present s.w K) * c.lease < 2 ^ 56
  pending : s.w.pending = []
  cache : ∀ k ∈ K, ∀ n, s.cache (hash k) = some n → findKey s.w k = some n

/-- The dictionary of the code. -/
def wideDict (hash : Bytes → Nat) (c : Config) (K : List Bytes) : Dict CState := { realDict hash c K with Good := WideState hash c K }

open Classical in
/-- The same, but a translation of a key outside of `K` ends the process. -/
noncomputable def wideOnly (hash : Bytes → Nat) (c : Config) (K : List Bytes) : Dict CState :=
  { wideDict hash c K with tr := fun s k => if k ∈ K then cachedTr hash s k else none }

theorem find_stab {N : Names} {lease : Nat} {w : World} {m : Nat} (h : StabInv N lease w m) (hm : m < 2 ^ 56) (k : Bytes) (n : Nat) :
    findKey w k = some n ↔ n < m ∧ w.db (N.nk ++ k) = some (u64tob n) := by
  unfold findKey
  rw [h.keys]
  constructor
  · intro hf
    cases hv : w.db (N.nk ++ k) with
    | none => rw [hv] at hf; cases hf
    | some v =>
      obtain ⟨x, hx, rfl⟩ := h.val k v hv
      rw [hv] at hf
      simp only [btou64_u64tob, Nat.mod_eq_of_lt (show x < 2 ^ 64 by omega), Option.some.injEq] at hf
      subst hf
      exact ⟨hx, rfl⟩
  · rintro ⟨hn, hv⟩
    rw [hv]
    simp only [btou64_u64tob, Nat.mod_eq_of_lt (show n < 2 ^ 64 by omega)]

theorem wide_tr (hpos : 0 < c.lease) (hinj : ∀ a ∈ K, ∀ b ∈ K, hash a = hash b → a = b) {s : CState} (hg : WideState hash c K s) {k : Bytes} (hk : k ∈ K) :
    ∃ s' n, cachedTr hash s k = some (s', n) ∧ WideState hash c K s' ∧ findKey s'.w k = some n ∧
      (∀ a m, findKey s.w a = some m → findKey s'.w a = some m) ∧ ∀ a m, findKey s'.w a = some m → a = k ∨ findKey s.w a = some m := by
  have hcache : ∀ a ∈ K, ∀ n, (if (s.oracle 0).2 (hash a) then none else s.cache (hash a)) = some n → findKey s.w a = some n := by
    intro a ha n h
    split at h
    · cases h
    · exact hg.cache a ha n h
  unfold cachedTr
  cases hc : (if (s.oracle 0).2 (hash k) = true then none else s.cache (hash k)) with
  | some v =>
    simp only [hc]
    exact ⟨_, v, rfl, ⟨hg.stab, hg.pending, hcache⟩, hcache k hk v hc, fun a m h => h, fun a m h => .inr h⟩
  | none =>
    simp only [hc]
    obtain ⟨m, hi, hm⟩ := hg.stab
    have hle := present_le s.w K
    cases hf : findKey s.w k with
    | some n =>
      have hd := (find_stab hi (by omega) k n).1 hf
      have ht : translateKey s.w k = some (s.w, n) := by
        unfold translateKey; rw [hi.keys, hd.2]; simp only [btou64_u64tob, Nat.mod_eq_of_lt (show n < 2 ^ 64 by omega)]
      rw [ht]
      refine ⟨_, n, rfl, ⟨⟨m, hi, hm⟩, hg.pending, fun a ha x h => ?_⟩, hf, fun a m h => h, fun a m h => .inr h⟩
      simp only at h
      split at h
      · rename_i he
        cases h
        rw [hinj a ha k hk he.2]; exact hf
      · exact hcache a ha x h
    | none =>
      have hlt : present s.w K < K.length := by
        have := countP_lt (l := K) (p := fun k => (findKey s.w k).isSome) (q := fun _ => true) (fun _ _ _ => rfl) hk (by simp [hf]) rfl
        simp only [List.countP_true] at this
        exact this
      have hmul : 2 * c.lease + 2 * (K.length - present s.w K - 1) * c.lease = 2 * (K.length - present s.w K) * c.lease := by
        rw [← Nat.add_mul]; congr 1; omega
      obtain ⟨w', n, ht, hp', hi', hn, hdb, hmono, honly⟩ := translateKey_stab hpos hg.pending (show m + 2 * c.lease < 2 ^ 56 by omega) hi k
      rw [ht]
      have hm' : m + 2 * c.lease < 2 ^ 56 := by omega
      have keep : ∀ a x, findKey s.w a = some x → findKey w' a = some x := fun a x h => by
        obtain ⟨h1, h2⟩ := (find_stab hi (by omega) a x).1 h
        exact (find_stab hi' hm' a x).2 ⟨by omega, hmono _ _ h2⟩
      have hhit : findKey w' k = some n := by
        obtain ⟨x, hx, e⟩ := hi'.val k _ hdb
        have : n = x := u64tob_inj (by omega) (by omega) e
        exact (find_stab hi' hm' k n).2 ⟨by omega, hdb⟩
      have only : ∀ a x, findKey w' a = some x → a = k ∨ findKey s.w a = some x := fun a x h => by
        obtain ⟨h1, h2⟩ := (find_stab hi' hm' a x).1 h
        rcases honly a _ h2 with h | h
        · exact .inl h
        · right
          obtain ⟨y, hy, e⟩ := hi.val a _ h
          have : x = y := u64tob_inj (by omega) (by omega) e
          exact (find_stab hi (by omega) a x).2 ⟨by omega, h⟩
      have hp : present s.w K + 1 ≤ present w' K := by
        refine countP_lt (fun a _ h => ?_) hk (by simp [hf]) (by simp [hhit])
        simp only [Option.isSome_iff_exists] at h ⊢
        obtain ⟨m, hm⟩ := h
        exact ⟨m, keep a m hm⟩
      refine ⟨_, n, rfl, ⟨⟨m + 2 * c.lease, hi', ?_⟩, hp', fun a ha x h => ?_⟩, hhit, keep, only⟩
      · simp only
        have : 2 * (K.length - present w' K) * c.lease ≤ 2 * (K.length - present s.w K - 1) * c.lease := Nat.mul_le_mul_right _ (by omega)
        omega
      · simp only at h
        split at h
        · rename_i he
          cases h
          rw [hinj a ha k hk he.2]; exact hhit
        · exact keep a x (hcache a ha x h)

theorem wide_lawful (hpos : 0 < c.lease) (hinj : ∀ a ∈ K, ∀ b ∈ K, hash a = hash b → a = b) : (wideOnly hash c K).Lawful := by
  have key : ∀ {st k st' n}, WideState hash c K st → (wideOnly hash c K).tr st k = some (st', n) →
      WideState hash c K st' ∧ findKey st'.w k = some n ∧
      (∀ a m, findKey st.w a = some m → findKey st'.w a = some m) ∧ ∀ a m, findKey st'.w a = some m → a = k ∨ findKey st.w a = some m := by
    intro st k st' n hg h
    by_cases hk : k ∈ K
    · simp only [wideOnly, if_pos hk] at h
      obtain ⟨s', m, a, b⟩ := wide_tr hpos hinj hg hk
      rw [a] at h
      cases h
      exact b
    · simp only [wideOnly, if_neg hk] at h; cases h
  exact {
    good := fun hg h => (key hg h).1
    hit := fun hg h => (key hg h).2.1
    keep := fun hg h ha => (key hg h).2.2.1 _ _ ha
    only := fun hg h ha => (key hg h).2.2.2 _ _ ha }

/-- The first start, on a database without entries of the dictionary. -/
theorem wide_start (hb : (2 * K.length + 1) * c.lease < 2 ^ 56) {db : KV} (hf : Fresh c.pfx db)
    (oracle : Nat → Bool × (Nat → Bool)) : ∃ s, reopen c db oracle = some s ∧ WideState hash c K s := by
  obtain ⟨h1, h2⟩ := init_stab c hf (init_eq c hf)
  refine ⟨⟨_, fun _ => none, oracle⟩, by simp only [reopen, init_eq c hf], ⟨⟨c.lease, h1, ?_⟩, rfl, fun _ _ _ h => nomatch h⟩⟩
  have : ∀ w, 2 * (K.length - present w K) * c.lease ≤ 2 * K.length * c.lease := fun w => Nat.mul_le_mul_right _ (Nat.mul_le_mul_left _ (Nat.sub_le _ _))
  rw [Nat.add_mul, Nat.one_mul] at hb
  exact Nat.lt_of_le_of_lt (Nat.add_le_add_left (this _) _) (by omega)

/-- A restart, after a clean shutdown or a crash, in any state: the same entries. -/
theorem wide_reopen (hpos : 0 < c.lease) {w : World} {m : Nat} (hi : StabInv (names c.pfx c.spare) c.lease w m)
    (hb : m + c.lease + 2 * (K.length - present w K) * c.lease < 2 ^ 56) (oracle : Nat → Bool × (Nat → Bool)) :
    ∃ s', reopen c w.db oracle = some s' ∧ WideState hash c K s' ∧ ∀ a n, findKey s'.w a = some n ↔ findKey w a = some n := by
  obtain ⟨w', o, hs, hi', hst⟩ := stab_step (names_ok c.pfx c.spare) rfl hpos rfl (show m + c.lease < 2 ^ 56 by omega) hi .reopen
  have hre : init c w.db = some w' ∧ w'.pending = [] ∧ o = .opened := by
    simp only [step] at hs
    unfold init
    split at hs
    · cases hs
    · cases hs; exact ⟨rfl, rfl, rfl⟩
  have hsame : ∀ a n, findKey w' a = some n ↔ findKey w a = some n := by
    intro a n
    rw [find_stab hi' (by omega), find_stab hi (by omega)]
    constructor
    · rintro ⟨h1, h2⟩
      rcases hst.fresh a _ h2 with h | ⟨n', -, h⟩
      · obtain ⟨y, hy, e⟩ := hi.val a _ h
        have : n = y := u64tob_inj (by omega) (by omega) e
        exact ⟨by omega, h⟩
      · rw [hre.2.2] at h; cases h
    · rintro ⟨h1, h2⟩; exact ⟨by omega, hst.mono _ _ h2⟩
  have hpres : present w' K = present w K := by
    unfold present
    congr 1
    funext k
    cases h : findKey w k with
    | none =>
      cases h' : findKey w' k with
      | none => rfl
      | some n => rw [(hsame k n).1 h'] at h; cases h
    | some n => rw [(hsame k n).2 h]
  exact ⟨⟨w', fun _ => none, oracle⟩, by simp only [reopen, hre.1], ⟨⟨_, hi', by simp only [hpres]; omega⟩, hre.2.1, fun _ _ _ h => nomatch h⟩, hsame⟩

end Verif.Cache

namespace Verif.Sv
open St (Flush Outcome)
open Cache

variable {hash : Bytes → Nat} {c : Tr.Config} {K : List Bytes} {bw : Nat}

theorem wide_agree : St.Agree (wideDict hash c K) (wideOnly hash c K) K where
  tr := fun st k hk => by simp only [wideOnly, wideDict, realDict, if_pos hk]
  look := rfl
  keyOf := rfl

/-- **C53** for the program as deployed, exactly: whatever the schedule of exports, flushes (cut off anywhere), shutdowns, crashes and
restarts, and however many labels there are, with the dictionary of the code and its cache (whose hash tells the labels apart): there is an
account of what each flush that returned has committed (everything, if it succeeded), and every scan returns what follows from it. -/
theorem C53_deployed_exact (hpos : 0 < c.lease) (hinj : ∀ a ∈ K, ∀ b ∈ K, hash a = hash b → a = b) (hbw : 0 < bw) {db : KV} (hdb : db Sq.seqKey = none)
    {st : CState} (hg : WideState hash c K st) {ls : List (Label CState)} {s0 s : Svc CState} {es : List (Event CState)}
    (h0 : init bw st db = some s0) (h : run (wideDict hash c K) bw s0 ls = some (s, es)) (hb : used bw ls + bw < 2 ^ 44)
    (hs : Sane (wideDict hash c K) bw s0 ls) (hK : Covers K ls) :
    ∃ L : List St.Landed,
      L.map (fun f => f.samples.map fun o => (o.sample, o.ok)) = (returnedFlushes es).map (fun p => p.1.samples.map fun x => (x, p.2)) ∧
      (∀ f ∈ L, f.Fine (wideDict hash c K) s.store.ctx.st) ∧
      ∀ (E : St.Env) (_ : E.Fair) (_ : E.NoFaults) (sc : St.Scan),
        St.scan (wideDict hash c K) s.store E sc = St.answer (wideDict hash c K) s.store.ctx.st s.store.idx.opened L E sc := by
  obtain ⟨e1, hv, hinc⟩ := C42_store_history (D := wideDict hash c K) hbw hdb st ls h0 h hb hs
  obtain ⟨v, o, r⟩ := (wide_agree (hash := hash) (c := c) (K := K)).run (opsOf es) (St.fresh st) hv (fun st _ h => h)
    (covered hbw hdb st h0 h (by omega) hK)
  have ho : St.samplesOf (wideOnly hash c K) st (opsOf es) = St.samplesOf (wideDict hash c K) st (opsOf es) := o
  have hr : St.run (wideOnly hash c K) st (opsOf es) = St.run (wideDict hash c K) st (opsOf es) := r
  obtain ⟨L, l1, l2, l3⟩ := St.C29_scan_exact (wideOnly hash c K) st (wide_lawful hpos hinj) hg (opsOf es) v (ho ▸ hinc)
  have hfl : St.flushesOf (wideOnly hash c K) st (opsOf es) = St.flushesOf (wideDict hash c K) st (opsOf es) := by
    rw [List.eq_iff_flatten_eq]
    unfold St.flushesOf
    rw [St.flushes_flatten, St.flushes_flatten, St.flushes_length, St.flushes_length]
    exact ⟨ho, rfl⟩
  rw [hr, ← e1] at l2
  refine ⟨L, ?_, fun f hf => ⟨(l2 f hf).views, (l2 f hf).shards, (l2 f hf).order, (l2 f hf).known, (l2 f hf).used⟩, fun E hE hF sc => ?_⟩
  · obtain ⟨s', i1, -, i3⟩ := init_inv (P := fun _ => True) (bw := bw) (st := st) hdb
    rw [h0] at i1; cases i1
    have := flushes_events ls 0 h
    rw [i3] at this
    rw [← this]
    show _ = List.map _ (St.flushesOf (wideDict hash c K) st (opsOf es))
    rw [← hfl, ← l1, List.map_map]
    rfl
  · have := l3 E hE hF sc
    rw [hr, ← e1] at this
    rw [← (wide_agree (hash := hash) (c := c) (K := K)).scan, this]
    rfl

theorem wide_step {s : Svc CState} {l : Label CState} : step (wideDict hash c K) bw s l = step (realDict hash c K) bw s l := by
  cases l <;> rfl

theorem wide_run : ∀ (ls : List (Label CState)) (s : Svc CState), run (wideDict hash c K) bw s ls = run (realDict hash c K) bw s ls
  | [], _ => rfl
  | l :: ls, s => by simp only [run, wide_step, wide_run ls]

/-- The hypotheses are met by a run of the deployed configuration on an empty database that flushes two samples. -/
example : ∃ db st s0 s es, db Sq.seqKey = none ∧ WideState toyHash Tr.deployed toyKeys st ∧ init 1000 st db = some s0 ∧
    run (wideDict toyHash Tr.deployed toyKeys) 1000 s0 toyRun = some (s, es) ∧ Sane (wideDict toyHash Tr.deployed toyKeys) 1000 s0 toyRun ∧
    Covers toyKeys toyRun ∧ used 1000 toyRun + 1000 < 2 ^ 44 ∧ (∀ a ∈ toyKeys, ∀ b ∈ toyKeys, toyHash a = toyHash b → a = b) ∧
    ackedOf es = [St.logAt 5 [97], St.logAt 7 [98]] := by
  obtain ⟨st, s, es, h, ha⟩ := toy_first
  obtain ⟨db, s0, hdb, h0, hrun⟩ := h.run
  obtain ⟨db', oracle, hfr, hre⟩ := h.dict
  obtain ⟨st', e, hw⟩ := wide_start (hash := toyHash) (c := Tr.deployed) (K := toyKeys) (by decide +kernel) hfr oracle
  rw [hre] at e; cases e
  exact ⟨db, st, s0, s, es, hdb, hw, h0, by rw [wide_run]; exact hrun, sane_of _ s0 h.once h.plain.times h.plain.orders, h.covers, h.ids.2, h.hashes, ha⟩

end Verif.Sv
