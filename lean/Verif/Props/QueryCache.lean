import Verif.Lemmas.QueryCache
/-! # C68: the program that `rq query` runs -/
namespace Verif.Qc

variable {comp : Nat → Bytes → Option Bytes} {hash : Bytes → Nat} {v : Nat} {K : List Bytes}

theorem reach_inv (hi : ∀ x ∈ K, ∀ y ∈ K, hash x = hash y → x = y) {s : St} (h : Reach comp hash v K s) : Inv comp hash v K s := by
  induction h with
  | init => exact Inv.init
  | step l _ hv hs ih => exact ih.step hi hv hs

theorem calm_exact (hi : ∀ x ∈ K, ∀ y ∈ K, hash x = hash y → x = y) {s : St} (h : CalmReach comp hash v K s) : Exact comp hash v K s := by
  induction h with
  | init => exact Exact.init
  | step l _ hv hc hs ih => exact ih.step hi hv hc hs

/-- **C68.** If the hashes of the scripts do not collide: however processes interleave, crash and fail, a process runs nothing but the compiled form of
its own script, from which bytes may be missing. -/
theorem C68_own_script (hi : ∀ x ∈ K, ∀ y ∈ K, hash x = hash y → x = y) {s : St} (h : Reach comp hash v K s) {p : Proc} (hp : p ∈ s.procs) {c : Bytes}
    (hc : p.phase = .running c) : ∃ out, comp v p.script = some out ∧ Garbled c out := by
  have hI := reach_inv hi h
  obtain ⟨i, hi'⟩ := List.getElem?_of_mem hp
  have := (hI.procs i p hi').2
  rw [hc] at this
  exact this

/-- **C68.** A process runs exactly the compiled form of its script, in all executions of one version of the program in which the hashes of
the scripts do not collide, no process reads a file while another writes it, and none ends while it writes. What is missing: each of these conditions
(see `C68_cut`, `C68_early`, `C68_upgrade`, `C68_collision`). -/
theorem C68_exact_partial (hi : ∀ x ∈ K, ∀ y ∈ K, hash x = hash y → x = y) {s : St} (h : CalmReach comp hash v K s) {p : Proc} (hp : p ∈ s.procs) {c : Bytes}
    (hc : p.phase = .running c) : comp v p.script = some c := by
  obtain ⟨i, hi'⟩ := List.getElem?_of_mem hp
  exact (calm_exact hi h).runs i p c hi' hc

/-- The process may still write the file of this key. -/
def Proc.mayWrite (hash : Bytes → Nat) (k : Nat) (p : Proc) : Prop :=
  hash p.script = k ∧ (p.phase = .miss ∨ (∃ out, p.phase = .compiled out) ∨ ∃ out off, p.phase = .writing out off)

/-- The file of key `k` is `c`, nobody is about to write it, and whoever came after the first `n` processes and runs it runs `c`. -/
structure Frozen (hash : Bytes → Nat) (k n : Nat) (c : Bytes) (s : St) : Prop where
  file : s.files.get k = some c
  quiet : ∀ (i : Nat) p, s.procs[i]? = some p → ¬ p.mayWrite hash k
  runs : ∀ (i : Nat) p, n ≤ i → s.procs[i]? = some p → hash p.script = k → ∀ d, p.phase = .running d → d = c
  many : n ≤ s.procs.length

theorem Frozen.goto {k n : Nat} {c : Bytes} {s : St} (h : Frozen hash k n c s) {i : Nat} {ph : Phase}
    (hq : ∀ q, s.procs[i]? = some q → ¬ ({ q with phase := ph } : Proc).mayWrite hash k)
    (hr : ∀ q, s.procs[i]? = some q → hash q.script = k → ∀ d, ph = .running d → d = c) : Frozen hash k n c (s.goto i ph) := by
  refine ⟨h.file, fun j p hj => ?_, fun j p hn hj hk d hd => ?_, by simpa [St.goto] using h.many⟩
  · rcases goto_get hj with ⟨-, hj⟩ | ⟨q, rfl, hq', rfl⟩
    · exact h.quiet j p hj
    · exact hq q hq'
  · rcases goto_get hj with ⟨-, hj⟩ | ⟨q, rfl, hq', rfl⟩
    · exact h.runs j p hn hj hk d hd
    · exact hr q hq' hk d hd

theorem Frozen.step {k n : Nat} {c : Bytes} {s s' : St} {l : Label} (h : Frozen hash k n c s) (hs : Qc.step comp hash s l = some s') :
    Frozen hash k n c s' := by
  cases l with
  | spawn w x =>
    cases hs
    refine ⟨h.file, fun j p hj => ?_, fun j p hn hj hk d hd => ?_, by have := h.many; simp; omega⟩
    · simp only at hj
      by_cases hlt : j < s.procs.length
      · rw [List.getElem?_append_left hlt] at hj; exact h.quiet j p hj
      · rw [List.getElem?_append_right (by omega), List.getElem?_singleton] at hj
        split at hj
        · cases hj
          rintro ⟨-, e | ⟨_, e⟩ | ⟨_, _, e⟩⟩ <;> cases e
        · cases hj
    · simp only at hj
      by_cases hlt : j < s.procs.length
      · rw [List.getElem?_append_left hlt] at hj; exact h.runs j p hn hj hk d hd
      · rw [List.getElem?_append_right (by omega), List.getElem?_singleton] at hj
        split at hj
        · cases hj; cases hd
        · cases hj
  | read i =>
    simp only [Qc.step, Option.bind_eq_some_iff] at hs
    obtain ⟨p, hp, hs⟩ := hs
    unfold readStep at hs
    split at hs
    · split at hs
      · rename_i c' hc
        cases hs
        refine h.goto (fun q hq => ?_) (fun q hq hk d e => ?_)
        · rintro ⟨-, e | ⟨_, e⟩ | ⟨_, _, e⟩⟩ <;> cases e
        · rw [hp] at hq; cases hq; cases e
          rw [hk, h.file] at hc; cases hc; rfl
      · rename_i hc
        cases hs
        refine h.goto (fun q hq => ?_) (fun q hq hk d e => by cases e)
        rw [hp] at hq; cases hq
        rintro ⟨hk, -⟩
        have hk : hash p.script = k := hk
        rw [hk, h.file] at hc; cases hc
    · cases hs
  | compile i =>
    simp only [Qc.step, Option.bind_eq_some_iff] at hs
    obtain ⟨p, hp, hs⟩ := hs
    unfold compileStep at hs
    split at hs
    · rename_i hph
      have hne : hash p.script ≠ k := fun e => h.quiet i p hp ⟨e, .inl hph⟩
      split at hs <;> cases hs
      · exact h.goto (fun q hq => by rw [hp] at hq; cases hq; exact fun hm => hne hm.1) (fun q hq hk d e => by cases e)
      · exact h.goto (fun q hq => by rw [hp] at hq; cases hq; exact fun hm => hne hm.1) (fun q hq hk d e => by cases e)
    · cases hs
  | open' i =>
    simp only [Qc.step, Option.bind_eq_some_iff] at hs
    obtain ⟨p, hp, hs⟩ := hs
    unfold openStep at hs
    split at hs
    · rename_i out hph
      have hne : hash p.script ≠ k := fun e => h.quiet i p hp ⟨e, .inr (.inl ⟨out, hph⟩)⟩
      cases hs
      have h' : Frozen hash k n c { s with files := s.files.set (hash p.script) [] } :=
        ⟨by simp only [AMap.get_set, if_neg hne]; exact h.file, h.quiet, h.runs, h.many⟩
      exact h'.goto (fun q hq => by have hq : s.procs[i]? = some q := hq; rw [hp] at hq; cases hq; exact fun hm => hne hm.1) (fun q hq hk d e => by cases e)
    · cases hs
  | write i m =>
    simp only [Qc.step, Option.bind_eq_some_iff] at hs
    obtain ⟨p, hp, hs⟩ := hs
    unfold writeStep at hs
    split at hs
    · rename_i out off hph
      split at hs
      · cases hs
      have hne : hash p.script ≠ k := fun e => h.quiet i p hp ⟨e, .inr (.inr ⟨out, off, hph⟩)⟩
      split at hs
      · rename_i f hf
        cases hs
        have h' : Frozen hash k n c { s with files := s.files.set (hash p.script) (put f off ((out.drop off).take m)) } :=
          ⟨by simp only [AMap.get_set, if_neg hne]; exact h.file, h.quiet, h.runs, h.many⟩
        exact h'.goto (fun q hq => by have hq : s.procs[i]? = some q := hq; rw [hp] at hq; cases hq; exact fun hm => hne hm.1)
          (fun q hq hk d e => by cases e)
      · cases hs
    · cases hs
  | finish i =>
    simp only [Qc.step, Option.bind_eq_some_iff] at hs
    obtain ⟨p, hp, hs⟩ := hs
    unfold finishStep at hs
    split at hs
    · rename_i out off hph
      have hne : hash p.script ≠ k := fun e => h.quiet i p hp ⟨e, .inr (.inr ⟨out, off, hph⟩)⟩
      split at hs
      · cases hs
        exact h.goto (fun q hq => by rw [hp] at hq; cases hq; exact fun hm => hne hm.1)
          (fun q hq hk d e => by rw [hp] at hq; cases hq; exact absurd hk hne)
      · cases hs
    · cases hs
  | crash i =>
    simp only [Qc.step, Option.map_eq_some_iff] at hs
    obtain ⟨p, hp, rfl⟩ := hs
    refine h.goto (fun q hq => ?_) (fun _ _ _ _ e => by cases e)
    rintro ⟨-, e | ⟨_, e⟩ | ⟨_, _, e⟩⟩ <;> cases e

/-- **C68.** Once a file is in the cache and nobody is about to write it, it stays for ever, whatever it holds, and every process
started from then on, with a script of that hash, of whatever version of the program, runs what is in it. -/
theorem C68_frozen {s s' : St} {k : Nat} {c : Bytes} (hf : s.files.get k = some c) (hq : ∀ p ∈ s.procs, ¬ p.mayWrite hash k) (ls : List Label)
    (h : run comp hash s ls = some s') : s'.files.get k = some c ∧
      ∀ (i : Nat) p, s.procs.length ≤ i → s'.procs[i]? = some p → hash p.script = k → ∀ d, p.phase = .running d → d = c := by
  have h0 : Frozen hash k s.procs.length c s :=
    ⟨hf, fun i p hp => hq p (List.mem_of_getElem? hp), fun i p hn hp => absurd (List.getElem?_eq_some_iff.1 hp).1 (by omega), Nat.le_refl _⟩
  suffices Frozen hash k s.procs.length c s' from ⟨this.file, this.runs⟩
  generalize s.procs.length = n at h0
  clear hf hq
  induction ls generalizing s with
  | nil => cases h; exact h0
  | cons l ls ih =>
    simp only [run, Option.bind_eq_some_iff] at h
    obtain ⟨s1, h1, h2⟩ := h
    exact ih h2 (h0.step h1)

/-! ## Witnesses -/

/-- Compiling puts the version in front; a script beginning with 0 does not compile. -/
def toyComp (v : Nat) (x : Bytes) : Option Bytes := if x.head? = some 0 then none else some (UInt8.ofNat v :: x)

/-- A hash for short scripts: two bytes at most. -/
def toyHash : Bytes → Nat
  | [] => 0
  | c :: l => c.toNat + 1 + 257 * toyHash l

theorem toyHash_inj : ∀ x y, toyHash x = toyHash y → x = y
  | [], [], _ => rfl
  | [], d :: y, h => by simp only [toyHash] at h; omega
  | c :: x, [], h => by simp only [toyHash] at h; omega
  | c :: x, d :: y, h => by
    simp only [toyHash] at h
    have hc := c.toNat_lt
    have hd := d.toNat_lt
    have h1 : c.toNat = d.toNat := by omega
    have h2 : toyHash x = toyHash y := by omega
    rw [UInt8.toNat_inj.1 h1, toyHash_inj x y h2]

/-- Two processes with one script: the first compiles, writes in two pieces and runs; the second reads the file. -/
def toyCalm : List Label := [.spawn 1 [5, 6], .spawn 1 [5, 6], .read 0, .compile 0, .open' 0, .write 0 1, .write 0 2, .finish 0, .read 1]

example : (run toyComp toyHash {} toyCalm).map (·.procs.map (·.phase)) = some [.running [1, 5, 6], .running [1, 5, 6]] := by decide +kernel

/-- **C68 is false** if a process is killed, or the disk is full, while it writes: the next run of the script executes a part of it. -/
theorem C68_cut : (run toyComp toyHash {} [.spawn 1 [5, 6], .read 0, .compile 0, .open' 0, .write 0 2, .crash 0, .spawn 1 [5, 6], .read 1]).map
    (·.procs.map (·.phase)) = some [.dead, .running [1, 5]] ∧ toyComp 1 [5, 6] = some [1, 5, 6] := by decide +kernel

/-- **C68 is false** of two processes at once: the second executes the empty program. -/
theorem C68_early : (run toyComp toyHash {} [.spawn 1 [5, 6], .spawn 1 [5, 6], .read 0, .compile 0, .open' 0, .read 1]).map
    (·.procs.map (·.phase)) = some [.writing [1, 5, 6] 0, .running []] := by decide +kernel

/-- **C68 is false** after an upgrade: version 2 executes what version 1 compiled. -/
theorem C68_upgrade : (run toyComp toyHash {} [.spawn 1 [5, 6], .read 0, .compile 0, .open' 0, .write 0 3, .finish 0, .spawn 2 [5, 6], .read 1]).map
    (·.procs.map (·.phase)) = some [.running [1, 5, 6], .running [1, 5, 6]] ∧ toyComp 2 [5, 6] = some [2, 5, 6] := by decide +kernel

/-- **C68 is false** if hashes collide: the second script is not run, but the first. -/
theorem C68_collision : (run toyComp (fun _ => 7) {} [.spawn 1 [5, 6], .read 0, .compile 0, .open' 0, .write 0 3, .finish 0, .spawn 1 [8], .read 1]).map
    (·.procs.map (·.phase)) = some [.running [1, 5, 6], .running [1, 5, 6]] := by decide +kernel

/-- The first steps of a calm execution that runs a program. -/
theorem toy_calm_reach : ∃ s, CalmReach toyComp toyHash 1 [[5], [6]] s ∧ ∃ p ∈ s.procs, p.phase = .running [1, 5] := by
  have h1 := CalmReach.step (comp := toyComp) (hash := toyHash) (v := 1) (K := [[5], [6]]) (.spawn 1 [5]) .init (fun w x e => by cases e; exact ⟨rfl, List.mem_cons_self⟩) trivial rfl
  have h2 := CalmReach.step (.read 0) h1 (fun w x e => by cases e) (fun p hp => by
    cases hp; rintro ⟨q, hq, -, out, off, e⟩
    obtain rfl := List.mem_singleton.1 hq
    cases e) rfl
  have h3 := CalmReach.step (.compile 0) h2 (fun w x e => by cases e) trivial rfl
  have h4 := CalmReach.step (.open' 0) h3 (fun w x e => by cases e) trivial rfl
  have h5 := CalmReach.step (.write 0 2) h4 (fun w x e => by cases e) trivial rfl
  have h6 := CalmReach.step (.finish 0) h5 (fun w x e => by cases e) trivial rfl
  exact ⟨_, h6, _, List.mem_cons_self, rfl⟩

end Verif.Qc
