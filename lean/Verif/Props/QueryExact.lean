import Verif.Spec.QueryTrace
import Verif.Props.QueryCache
/-! # C68, exactly: the program a query runs, from the course of events -/
namespace Verif.Qc
variable {comp : Nat → Bytes → Option Bytes} {hash : Bytes → Nat}

/-- The process has read the cache; this says what it found and what it may run. -/
def Ran (comp : Nat → Bytes → Option Bytes) (hash : Bytes → Nat) (r : List Label) (i : Nat) (v : Nat) (x c : Bytes) : Prop :=
  ∃ b a, r = b ++ .read i :: a ∧
    match fileAt comp hash (hash x) a with
    | none => comp v x = some c
    | some ws => ∀ n : Nat, c[n]? = byteAt n ws

/-- The process has read the cache, and found nothing. -/
def Missed (comp : Nat → Bytes → Option Bytes) (hash : Bytes → Nat) (r : List Label) (i : Nat) (x : Bytes) : Prop :=
  ∃ b a, r = b ++ .read i :: a ∧ fileAt comp hash (hash x) a = none

def PhaseAt (comp : Nat → Bytes → Option Bytes) (hash : Bytes → Nat) (r : List Label) (i : Nat) (v : Nat) (x : Bytes) : Phase → Prop
  | .start => sent i r = 0
  | .miss => sent i r = 0 ∧ Missed comp hash r i x
  | .compiled out => sent i r = 0 ∧ Missed comp hash r i x ∧ comp v x = some out
  | .writing out off => off = min (sent i r) out.length ∧ Missed comp hash r i x ∧ comp v x = some out
  | .running c => Ran comp hash r i v x c
  | .dead => True

structure Book (comp : Nat → Bytes → Option Bytes) (hash : Bytes → Nat) (r : List Label) (s : St) : Prop where
  procs : s.procs.map (fun p => (p.version, p.script)) = started r
  phase : ∀ (i : Nat) p, s.procs[i]? = some p → PhaseAt comp hash r i p.version p.script p.phase
  files : ∀ k, match fileAt comp hash k r with
    | none => s.files.get k = none
    | some ws => ∃ f, s.files.get k = some f ∧ ∀ n : Nat, f[n]? = byteAt n ws
  future : ∀ i, s.procs.length ≤ i → sent i r = 0

theorem Missed.more {r : List Label} {i : Nat} {x : Bytes} (h : Missed comp hash r i x) (l : Label) : Missed comp hash (l :: r) i x := by
  obtain ⟨b, a, rfl, h⟩ := h; exact ⟨l :: b, a, rfl, h⟩

theorem Ran.more {r : List Label} {i v : Nat} {x c : Bytes} (h : Ran comp hash r i v x c) (l : Label) : Ran comp hash (l :: r) i v x c := by
  obtain ⟨b, a, rfl, h⟩ := h; exact ⟨l :: b, a, rfl, h⟩

/-- What other processes do, or this one without writing. -/
theorem PhaseAt.more {r : List Label} {i v : Nat} {x : Bytes} {ph : Phase} (h : PhaseAt comp hash r i v x ph) {l : Label} (hl : l.sent i = 0) :
    PhaseAt comp hash (l :: r) i v x ph := by
  have e : sent i (l :: r) = sent i r := by unfold sent; rw [List.map_cons, List.sum_cons, hl, Nat.zero_add]
  cases ph with
  | start => exact e.trans h
  | miss => exact ⟨e.trans h.1, h.2.more l⟩
  | compiled out => exact ⟨e.trans h.1, h.2.1.more l, h.2.2⟩
  | writing out off => exact ⟨by rw [e]; exact h.1, h.2.1.more l, h.2.2⟩
  | running c => exact Ran.more h l
  | dead => trivial

theorem sent_cons (i : Nat) (l : Label) (r : List Label) : sent i (l :: r) = l.sent i + sent i r := by
  unfold sent; rw [List.map_cons, List.sum_cons]

theorem goto_procs (s : St) (i : Nat) (ph : Phase) :
    (s.goto i ph).procs.map (fun p => (p.version, p.script)) = s.procs.map fun p => (p.version, p.script) := by
  unfold St.goto
  refine List.ext_getElem? fun j => ?_
  simp only [List.getElem?_map, List.getElem?_modify]
  cases s.procs[j]? with
  | none => rfl
  | some q => by_cases h : i = j <;> simp [h]

theorem started_cons (l : Label) (r : List Label) : started (l :: r) = started r ++ (l.spawned).toList := by
  unfold started
  cases h : l.spawned <;> simp [h]

/-- A step of process `i` that leaves the files alone. -/
theorem Book.goto {r : List Label} {s : St} (h : Book comp hash r s) {i : Nat} {ph : Phase} {l : Label} (hl : ∀ j, l.sent j = 0)
    (hsp : l.spawned = none) (hf : ∀ k, fileAt comp hash k (l :: r) = fileAt comp hash k r)
    (hp : ∀ q, s.procs[i]? = some q → PhaseAt comp hash (l :: r) i q.version q.script ph) : Book comp hash (l :: r) (s.goto i ph) := by
  refine ⟨?_, fun j p hj => ?_, fun k => ?_, fun j hj => ?_⟩
  · rw [goto_procs, started_cons, hsp, h.procs]; simp
  · rcases goto_get hj with ⟨-, hj⟩ | ⟨q, rfl, hq, rfl⟩
    · exact (h.phase j p hj).more (hl j)
    · exact hp q hq
  · rw [hf]; exact h.files k
  · rw [sent_cons, hl, h.future j (by simpa [St.goto] using hj)]

theorem Book.who {r : List Label} {s : St} (h : Book comp hash r s) {i : Nat} {p : Proc} (hp : s.procs[i]? = some p) :
    (started r)[i]? = some (p.version, p.script) := by
  rw [← h.procs, List.getElem?_map, hp]; rfl

theorem byteAt_put {f chunk : Bytes} {off : Nat} {ws : List (Nat × Bytes)} (hne : chunk ≠ []) (h : ∀ n : Nat, f[n]? = byteAt n ws) (n : Nat) :
    (put f off chunk)[n]? = byteAt n ((off, chunk) :: ws) := by
  unfold byteAt
  by_cases h1 : n < off
  · rw [if_neg (by omega), put_before h1, h n]
    cases byteAt n ws with
    | none => simp only [if_pos (And.intro h1 hne)]; rfl
    | some b => rfl
  · by_cases h2 : n < off + chunk.length
    · rw [if_pos ⟨by omega, h2⟩, put_in (by omega) h2]
    · rw [if_neg (by omega), put_after (by omega), h n]
      cases byteAt n ws with
      | none => simp only [if_neg (fun h : n < off ∧ chunk ≠ [] => h1 h.1)]
      | some b => rfl

theorem Book.step {r : List Label} {s s' : St} {l : Label} (h : Book comp hash r s) (hs : Qc.step comp hash s l = some s') :
    Book comp hash (l :: r) s' := by
  cases l with
  | spawn w x =>
    cases hs
    refine ⟨?_, fun j p hj => ?_, fun k => h.files k, fun j hj => ?_⟩
    · rw [started_cons, List.map_append, h.procs]; rfl
    · simp only at hj
      by_cases hlt : j < s.procs.length
      · rw [List.getElem?_append_left hlt] at hj; exact (h.phase j p hj).more rfl
      · rw [List.getElem?_append_right (by omega), List.getElem?_singleton] at hj
        split at hj
        · cases hj
          show sent j _ = 0
          rw [sent_cons, h.future j (by omega)]; rfl
        · cases hj
    · rw [sent_cons, h.future j (by simp at hj; omega)]; rfl
  | read i =>
    simp only [Qc.step, Option.bind_eq_some_iff] at hs
    obtain ⟨p, hp, hs⟩ := hs
    unfold readStep at hs
    split at hs
    · rename_i hph
      have hst := h.phase i p hp
      rw [hph] at hst
      have hfile := h.files (hash p.script)
      split at hs
      · rename_i c hc
        cases hs
        refine h.goto (fun _ => rfl) rfl (fun _ => rfl) fun q hq => ?_
        rw [hp] at hq; cases hq
        refine ⟨[], r, rfl, ?_⟩
        cases hw : fileAt comp hash (hash p.script) r with
        | none => rw [hw] at hfile; rw [hc] at hfile; cases hfile
        | some ws =>
          rw [hw] at hfile
          obtain ⟨f, hf, hb⟩ := hfile
          rw [hc] at hf; cases hf
          exact hb
      · rename_i hc
        cases hs
        refine h.goto (fun _ => rfl) rfl (fun _ => rfl) fun q hq => ?_
        rw [hp] at hq; cases hq
        refine ⟨by rw [sent_cons]; exact (Nat.zero_add _).trans hst, [], r, rfl, ?_⟩
        cases hw : fileAt comp hash (hash p.script) r with
        | none => rfl
        | some ws =>
          rw [hw] at hfile
          obtain ⟨f, hf, hb⟩ := hfile
          rw [hc] at hf; cases hf
    · cases hs
  | compile i =>
    simp only [Qc.step, Option.bind_eq_some_iff] at hs
    obtain ⟨p, hp, hs⟩ := hs
    unfold compileStep at hs
    split at hs
    · rename_i hph
      have hst := h.phase i p hp
      rw [hph] at hst
      split at hs
      · rename_i out hc
        cases hs
        refine h.goto (fun _ => rfl) rfl (fun _ => rfl) fun q hq => ?_
        rw [hp] at hq; cases hq
        exact ⟨by rw [sent_cons]; exact (Nat.zero_add _).trans hst.1, hst.2.more _, hc⟩
      · cases hs; exact h.goto (fun _ => rfl) rfl (fun _ => rfl) fun _ _ => trivial
    · cases hs
  | open' i =>
    simp only [Qc.step, Option.bind_eq_some_iff] at hs
    obtain ⟨p, hp, hs⟩ := hs
    unfold openStep at hs
    split at hs
    · rename_i out hph
      have hst := h.phase i p hp
      rw [hph] at hst
      cases hs
      have hkey : keyOf hash r i = some (hash p.script) := by unfold keyOf; rw [h.who hp]; rfl
      refine ⟨?_, fun j q hj => ?_, fun k => ?_, fun j hj => ?_⟩
      · rw [goto_procs, started_cons, ← h.procs]; exact (List.append_nil _).symm
      · rcases goto_get hj with ⟨-, hj⟩ | ⟨q', rfl, hq, rfl⟩
        · exact (h.phase j q hj).more rfl
        · have hq : s.procs[j]? = some q' := hq
          rw [hp] at hq; cases hq
          exact ⟨by rw [sent_cons, hst.1]; exact (Nat.zero_min _).symm, hst.2.1.more _, hst.2.2⟩
      · have hset : (({ s with files := s.files.set (hash p.script) [] } : St).goto i (.writing out 0)).files.get k =
            if hash p.script = k then some [] else s.files.get k := AMap.get_set _ _ _ _
        simp only [fileAt, hkey, Option.some.injEq]
        rw [hset]
        by_cases hk : hash p.script = k
        · simp only [if_pos hk]
          exact ⟨[], rfl, fun n => rfl⟩
        · simp only [if_neg hk]
          exact h.files k
      · rw [sent_cons, h.future j (by simpa [St.goto] using hj)]; rfl
    · cases hs
  | write i m =>
    simp only [Qc.step, Option.bind_eq_some_iff] at hs
    obtain ⟨p, hp, hs⟩ := hs
    unfold writeStep at hs
    split at hs
    · rename_i out off hph
      have hst := h.phase i p hp
      rw [hph] at hst
      split at hs
      · cases hs
      · rename_i hne
        split at hs
        · rename_i f hf
          cases hs
          have hoff : sent i r = off := by
            have h1 := hst.1
            have h2 : off < out.length := Nat.lt_of_not_le fun hc => by
              rw [List.drop_eq_nil_of_le hc] at hne
              exact hne (by simp)
            omega
          have hkey : keyOf hash r i = some (hash p.script) := by unfold keyOf; rw [h.who hp]; rfl
          have hout : outOf comp r i = out := by
            unfold outOf
            rw [h.who hp]
            show (comp p.version p.script).getD [] = out
            rw [hst.2.2]; rfl
          refine ⟨?_, fun j q hj => ?_, fun k => ?_, fun j hj => ?_⟩
          · rw [goto_procs, started_cons, ← h.procs]; exact (List.append_nil _).symm
          · rcases goto_get hj with ⟨hne', hj⟩ | ⟨q', rfl, hq, rfl⟩
            · exact (h.phase j q hj).more (if_neg (Ne.symm hne'))
            · have hq : s.procs[j]? = some q' := hq
              rw [hp] at hq; cases hq
              refine ⟨?_, hst.2.1.more _, hst.2.2⟩
              rw [sent_cons, hoff]
              show min (off + m) out.length = min ((if j = j then m else 0) + off) out.length
              rw [if_pos rfl]; omega
          · have hset : (({ s with files := s.files.set (hash p.script) (put f off ((out.drop off).take m)) } : St).goto i
                (.writing out (min (off + m) out.length))).files.get k =
                if hash p.script = k then some (put f off ((out.drop off).take m)) else s.files.get k := AMap.get_set _ _ _ _
            simp only [fileAt, hkey, Option.some.injEq, hout, hoff]
            rw [hset]
            have hfile := h.files k
            by_cases hk : hash p.script = k
            · simp only [if_pos hk]
              rw [← hk] at hfile ⊢
              rw [hf] at hfile
              cases hw : fileAt comp hash (hash p.script) r with
              | none => rw [hw] at hfile; cases hfile
              | some ws =>
                rw [hw] at hfile
                obtain ⟨f', hf', hb⟩ := hfile
                cases hf'
                exact ⟨_, rfl, fun n => byteAt_put hne hb n⟩
            · simp only [if_neg hk]
              exact hfile
          · have hj : s.procs.length ≤ j := by simpa [St.goto] using hj
            rw [sent_cons, h.future j hj]
            have : i < s.procs.length := (List.getElem?_eq_some_iff.1 hp).1
            show (if i = j then m else 0) + 0 = 0
            rw [if_neg (by omega)]
        · cases hs
    · cases hs
  | finish i =>
    simp only [Qc.step, Option.bind_eq_some_iff] at hs
    obtain ⟨p, hp, hs⟩ := hs
    unfold finishStep at hs
    split at hs
    · rename_i out off hph
      have hst := h.phase i p hp
      rw [hph] at hst
      split at hs
      · cases hs
        refine h.goto (fun _ => rfl) rfl (fun _ => rfl) fun q hq => ?_
        rw [hp] at hq; cases hq
        obtain ⟨-, ⟨b, a, e, hm⟩, hc⟩ := hst
        exact Ran.more ⟨b, a, e, by rw [hm]; exact hc⟩ _
      · cases hs
    · cases hs
  | crash i =>
    simp only [Qc.step, Option.map_eq_some_iff] at hs
    obtain ⟨p, hp, rfl⟩ := hs
    exact h.goto (fun _ => rfl) rfl (fun _ => rfl) fun _ _ => trivial

theorem Book.init : Book comp hash [] {} :=
  ⟨rfl, fun i p h => by simp at h, fun k => rfl, fun i _ => rfl⟩

theorem Book.run {r : List Label} {s s' : St} (h : Book comp hash r s) {ls : List Label} (hs : Qc.run comp hash s ls = some s') :
    Book comp hash (ls.reverse ++ r) s' := by
  induction ls generalizing r s with
  | nil => cases hs; exact h
  | cons l ls ih =>
    simp only [Qc.run, Option.bind_eq_some_iff] at hs
    obtain ⟨s1, h1, h2⟩ := hs
    have := ih (h.step h1) h2
    rw [List.reverse_cons, List.append_assoc]; exact this

/-- **C68**, exactly, for any compiler and hash, any versions, any number of processes and every interleaving, crash and failure: a
process that runs a program has read the cache once; if there was no file, it runs the compiled form of its own script, in full; if
there was one, it runs what processes with scripts of the same hash had written to it, since it was last emptied, by then. -/
theorem C68_exact {ls : List Label} {s : St} (h : run comp hash {} ls = some s) {i : Nat} {p : Proc} (hp : s.procs[i]? = some p) {c : Bytes}
    (hc : p.phase = .running c) :
    (started ls.reverse)[i]? = some (p.version, p.script) ∧
    ∃ a b, ls = a ++ .read i :: b ∧
      match fileAt comp hash (hash p.script) a.reverse with
      | none => comp p.version p.script = some c
      | some ws => ∀ n : Nat, c[n]? = byteAt n ws := by
  have hb := (Book.init (comp := comp) (hash := hash)).run h
  rw [List.append_nil] at hb
  have h1 := hb.phase i p hp
  rw [hc] at h1
  obtain ⟨b, a, e, hm⟩ := h1
  refine ⟨hb.who hp, a.reverse, b.reverse, ?_, by rw [List.reverse_reverse]; exact hm⟩
  have := congrArg List.reverse e
  rw [List.reverse_reverse] at this
  rw [this]; simp

/-- Every write is of a part of what some process with that key compiled. -/
theorem fileAt_from {k : Nat} {r : List Label} {ws : List (Nat × Bytes)} (h : fileAt comp hash k r = some ws) {w : Nat × Bytes} (hw : w ∈ ws) :
    ∃ r' j m, (∀ l ∈ r', l ∈ r) ∧ keyOf hash r' j = some k ∧ w.2 = ((outOf comp r' j).drop w.1).take m := by
  induction r generalizing ws with
  | nil => cases h
  | cons l r ih =>
    have up : ∀ {ws}, fileAt comp hash k r = some ws → w ∈ ws →
        ∃ r' j m, (∀ l' ∈ r', l' ∈ l :: r) ∧ keyOf hash r' j = some k ∧ w.2 = ((outOf comp r' j).drop w.1).take m := by
      intro ws h hw
      obtain ⟨r', j, m, h1, h2⟩ := ih h hw
      exact ⟨r', j, m, fun l' hl => List.mem_cons_of_mem _ (h1 l' hl), h2⟩
    cases l with
    | open' i =>
      simp only [fileAt] at h
      by_cases hk : keyOf hash r i = some k
      · rw [if_pos hk] at h; cases h; simp at hw
      · rw [if_neg hk] at h; exact up h hw
    | write i m =>
      simp only [fileAt] at h
      by_cases hk : keyOf hash r i = some k
      · rw [if_pos hk, Option.map_eq_some_iff] at h
        obtain ⟨ws', h', rfl⟩ := h
        rcases List.mem_cons.1 hw with rfl | hw
        · exact ⟨r, i, m, fun l hl => List.mem_cons_of_mem _ hl, hk, rfl⟩
        · exact up h' hw
      · rw [if_neg hk] at h; exact up h hw
    | spawn v x => exact up h hw
    | read i => exact up h hw
    | compile i => exact up h hw
    | finish i => exact up h hw
    | crash i => exact up h hw

theorem byteAt_covered {out : Bytes} {ws : List (Nat × Bytes)} (hw : ∀ w ∈ ws, ∃ m, w.2 = (out.drop w.1).take m) (n : Nat) :
    ((∃ w ∈ ws, w.1 ≤ n ∧ n < w.1 + w.2.length) → byteAt n ws = out[n]?) ∧
    ((¬ ∃ w ∈ ws, w.1 ≤ n ∧ n < w.1 + w.2.length) → byteAt n ws = none ∨ byteAt n ws = some 0) := by
  induction ws with
  | nil => exact ⟨fun ⟨w, h, _⟩ => by simp at h, fun _ => .inl rfl⟩
  | cons w ws ih =>
    obtain ⟨i1, i2⟩ := ih fun w h => hw w (List.mem_cons_of_mem _ h)
    obtain ⟨off, ch⟩ := w
    obtain ⟨m, hm⟩ := hw _ List.mem_cons_self
    simp only at hm
    by_cases hc : off ≤ n ∧ n < off + ch.length
    · refine ⟨fun _ => ?_, fun h => absurd ⟨_, List.mem_cons_self, hc⟩ h⟩
      unfold byteAt
      rw [if_pos hc, hm]
      have : n - off < m := by
        have := hc.2
        rw [hm, chunk_length] at this
        omega
      rw [chunk_get _ _ _ _ this]
      congr 1; omega
    · have hs : (∃ w ∈ (off, ch) :: ws, w.1 ≤ n ∧ n < w.1 + w.2.length) ↔ ∃ w ∈ ws, w.1 ≤ n ∧ n < w.1 + w.2.length := by
        constructor
        · rintro ⟨w, h, h'⟩
          rcases List.mem_cons.1 h with rfl | h
          · exact absurd h' hc
          · exact ⟨w, h, h'⟩
        · rintro ⟨w, h, h'⟩; exact ⟨w, List.mem_cons_of_mem _ h, h'⟩
      rw [hs]
      unfold byteAt
      rw [if_neg hc]
      refine ⟨fun h => ?_, fun h => ?_⟩
      · have hv := i1 h
        cases hb : byteAt n ws with
        | some b => rw [← hv, hb]
        | none =>
          rw [hb] at hv
          obtain ⟨w, hw', h1, h2⟩ := h
          obtain ⟨m', hm'⟩ := hw w (List.mem_cons_of_mem _ hw')
          rw [hm', chunk_length] at h2
          have := List.getElem?_eq_none_iff.1 hv.symm
          omega
      · rcases i2 h with hb | hb
        · rw [hb]
          by_cases h' : n < off ∧ ch ≠ []
          · exact .inr (by simp only [if_pos h'])
          · exact .inl (by simp only [if_neg h'])
        · rw [hb]; exact .inr rfl

theorem byteAt_beyond {out : Bytes} {ws : List (Nat × Bytes)} (hw : ∀ w ∈ ws, ∃ m, w.2 = (out.drop w.1).take m) {n : Nat} (hn : out.length ≤ n) :
    byteAt n ws = none := by
  induction ws with
  | nil => rfl
  | cons w ws ih =>
    obtain ⟨off, ch⟩ := w
    obtain ⟨m, hm⟩ := hw _ List.mem_cons_self
    simp only at hm
    have hl : ch.length = min m (out.length - off) := by rw [hm, chunk_length]
    unfold byteAt
    rw [if_neg (by omega), ih fun w h => hw w (List.mem_cons_of_mem _ h)]
    simp only
    rw [if_neg]
    rintro ⟨h1, h2⟩
    exact h2 (List.length_eq_zero_iff.1 (by omega))

/-- **C68**, when the program is run in full: the hashes of the scripts do not collide, there is one version, and the compiled form has no zero bytes. Then a
process runs all of it exactly if, when it read the cache, there was no file or every byte of it had been written since the file was
last emptied. -/
theorem C68_full_iff {v : Nat} {ls : List Label} (hi : ∀ w x w' y, .spawn w x ∈ ls → .spawn w' y ∈ ls → hash x = hash y → x = y) (hv : ∀ w x, .spawn w x ∈ ls → w = v) {s : St}
    (h : run comp hash {} ls = some s) {i : Nat} {p : Proc} (hp : s.procs[i]? = some p) {c out : Bytes}
    (hc : p.phase = .running c) (hout : comp v p.script = some out) (hz : (0 : UInt8) ∉ out) :
    ∃ a b, ls = a ++ .read i :: b ∧ (c = out ↔
      ∀ ws, fileAt comp hash (hash p.script) a.reverse = some ws → ∀ n < out.length, ∃ w ∈ ws, w.1 ≤ n ∧ n < w.1 + w.2.length) := by
  obtain ⟨hw, a, b, e, hm⟩ := C68_exact h hp hc
  have hmem : ∀ {r' : List Label} {j : Nat} {w x}, (∀ l ∈ r', l ∈ ls) → (started r')[j]? = some (w, x) → .spawn w x ∈ ls := by
    intro r' j w x hr hj
    have := List.mem_of_getElem? hj
    unfold started at this
    rw [List.mem_reverse, List.mem_filterMap] at this
    obtain ⟨l, hl, hl'⟩ := this
    cases l <;> simp only [Label.spawned, Option.some.injEq, Prod.mk.injEq, reduceCtorEq] at hl'
    obtain ⟨rfl, rfl⟩ := hl'
    exact hr _ hl
  refine ⟨a, b, e, ?_⟩
  cases hf : fileAt comp hash (hash p.script) a.reverse with
  | none =>
    rw [hf] at hm
    have hpv : p.version = v := hv _ _ (hmem (fun l hl => List.mem_reverse.1 hl) hw)
    rw [hpv] at hm
    have hm : comp v p.script = some c := hm
    rw [hout] at hm
    cases hm
    exact ⟨fun _ ws h => (nomatch h), fun _ => rfl⟩
  | some ws =>
    rw [hf] at hm
    have hm : ∀ n : Nat, c[n]? = byteAt n ws := hm
    have hall : ∀ w ∈ ws, ∃ m, w.2 = (out.drop w.1).take m := by
      intro w hw'
      obtain ⟨r', j, m, h1, h2, h3⟩ := fileAt_from hf hw'
      refine ⟨m, ?_⟩
      rw [h3]
      suffices outOf comp r' j = out by rw [this]
      unfold keyOf at h2
      rw [Option.map_eq_some_iff] at h2
      obtain ⟨⟨w', x'⟩, h4, h5⟩ := h2
      have hsp : .spawn w' x' ∈ ls := hmem (fun l hl => by rw [e]; exact List.mem_append_left _ (List.mem_reverse.1 (h1 l hl))) h4
      have hx : x' = p.script := hi _ _ _ _ hsp (hmem (fun l hl => List.mem_reverse.1 hl) hw) h5
      have hw' : w' = v := hv _ _ hsp
      unfold outOf
      rw [h4]
      show (comp w' x').getD [] = out
      rw [hx, hw', hout]; rfl
    constructor
    · rintro rfl ws' e' n hn
      cases e'
      by_cases hcov : ∃ w ∈ ws, w.1 ≤ n ∧ n < w.1 + w.2.length
      · exact hcov
      · exfalso
        rcases (byteAt_covered hall n).2 hcov with h1 | h1
        · rw [← hm n] at h1; have := List.getElem?_eq_none_iff.1 h1; omega
        · rw [← hm n] at h1; exact hz (List.mem_of_getElem? h1)
    · intro h1
      have h1 := h1 ws rfl
      refine List.ext_getElem? fun n => ?_
      rw [hm n]
      by_cases hn : n < out.length
      · exact (byteAt_covered hall n).1 (h1 n hn)
      · by_cases hcov : ∃ w ∈ ws, w.1 ≤ n ∧ n < w.1 + w.2.length
        · exact (byteAt_covered hall n).1 hcov
        · rw [List.getElem?_eq_none (by omega), byteAt_beyond hall (by omega)]

/-- What the second process of `C68_cut` finds: two bytes of three. -/
example : fileAt toyComp toyHash (toyHash [5, 6]) [Label.spawn 1 [5, 6], .crash 0, .write 0 2, .open' 0, .compile 0, .read 0, .spawn 1 [5, 6]] =
    some [(0, [1, 5])] := by decide +kernel

/-- A process that was overtaken by one that empties the file leaves a gap: bytes 0 and 1 are zero when the third process reads. -/
theorem C68_gap : (run toyComp toyHash {} [.spawn 1 [5, 6], .spawn 1 [5, 6], .read 0, .read 1, .compile 0, .compile 1, .open' 0, .write 0 2,
      .open' 1, .write 0 1, .spawn 1 [5, 6], .read 2]).map (·.procs.map (·.phase)) =
    some [.writing [1, 5, 6] 3, .writing [1, 5, 6] 0, .running [0, 0, 6]] := by decide +kernel

end Verif.Qc
