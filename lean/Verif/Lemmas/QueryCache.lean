import Verif.Spec.QueryCache
import Verif.Lemmas.Bitmap
/-! # The query cache: invariants -/
namespace Verif.Qc

variable {comp : Nat → Bytes → Option Bytes} {hash : Bytes → Nat} {v : Nat} {K : List Bytes}

theorem put_before {f chunk : Bytes} {off i : Nat} (h : i < off) : (put f off chunk)[i]? = some (f[i]?.getD 0) := by
  unfold put
  have hl : ((f ++ List.replicate (off - f.length) 0).take off).length = off := by simp; omega
  rw [List.append_assoc, List.getElem?_append_left (by rw [hl]; exact h), List.getElem?_take_of_lt h]
  by_cases hf : i < f.length
  · rw [List.getElem?_append_left hf, List.getElem?_eq_getElem hf]; rfl
  · rw [List.getElem?_append_right (by omega), List.getElem?_replicate, if_pos (by omega), List.getElem?_eq_none (by omega)]; rfl

theorem put_in {f chunk : Bytes} {off i : Nat} (h : off ≤ i) (h' : i < off + chunk.length) : (put f off chunk)[i]? = chunk[i - off]? := by
  unfold put
  have hl : ((f ++ List.replicate (off - f.length) 0).take off).length = off := by simp; omega
  rw [List.append_assoc, List.getElem?_append_right (by rw [hl]; exact h), hl, List.getElem?_append_left (by omega)]

theorem put_after {f chunk : Bytes} {off i : Nat} (h : off + chunk.length ≤ i) : (put f off chunk)[i]? = f[i]? := by
  unfold put
  have hl : ((f ++ List.replicate (off - f.length) 0).take off).length = off := by simp; omega
  rw [List.append_assoc, List.getElem?_append_right (by rw [hl]; omega), hl, List.getElem?_append_right (by omega), List.getElem?_drop]
  congr 1; omega

theorem put_length (f chunk : Bytes) (off : Nat) : (put f off chunk).length = max f.length (off + chunk.length) := by
  unfold put; simp; omega

theorem chunk_get (out : Bytes) (off k i : Nat) (h : i < k) : ((out.drop off).take k)[i]? = out[off + i]? := by
  rw [List.getElem?_take_of_lt h, List.getElem?_drop]

theorem chunk_length (out : Bytes) (off k : Nat) : ((out.drop off).take k).length = min k (out.length - off) := by simp

/-- Writing a part of `out` keeps a file garbled, at most. -/
theorem Garbled.put {f out : Bytes} (h : Garbled f out) {off k : Nat} (ho : off ≤ out.length) : Garbled (put f off ((out.drop off).take k)) out := by
  constructor
  · rw [put_length, chunk_length]; have := h.1; omega
  · intro i c hc
    by_cases h1 : i < off
    · rw [put_before h1] at hc
      cases hf : f[i]? with
      | none => rw [hf] at hc; cases hc; exact .inl rfl
      | some d => rw [hf] at hc; cases hc; exact h.2 i _ hf
    · by_cases h2 : i < off + ((out.drop off).take k).length
      · rw [put_in (by omega) h2, chunk_get _ _ _ _ (by rw [chunk_length] at h2; omega)] at hc
        right; rw [← hc]; congr 1; omega
      · rw [put_after (by omega)] at hc
        exact h.2 i c hc

/-- Where the file agrees with `out`, it goes on to do so. -/
theorem put_take {f out : Bytes} {off k n : Nat} (ho : off ≤ out.length) (hn : n ≤ f.length) (h : f.take n = out.take n) :
    n ≤ (put f off ((out.drop off).take k)).length ∧ (put f off ((out.drop off).take k)).take n = out.take n := by
  refine ⟨by rw [put_length]; omega, ?_⟩
  refine List.ext_getElem? fun i => ?_
  by_cases hi : i < n
  · rw [List.getElem?_take_of_lt hi, List.getElem?_take_of_lt hi]
    have hf : f[i]? = out[i]? := by
      have := congrArg (·[i]?) h
      simpa only [List.getElem?_take_of_lt hi] using this
    by_cases h1 : i < off
    · rw [put_before h1, hf, List.getElem?_eq_getElem (by omega)]; rfl
    · by_cases h2 : i < off + ((out.drop off).take k).length
      · rw [put_in (by omega) h2, chunk_get _ _ _ _ (by rw [chunk_length] at h2; omega)]
        congr 1; omega
      · rw [put_after (by omega), hf]
  · rw [List.getElem?_take, if_neg hi, List.getElem?_take, if_neg hi]

/-- The writer itself gets on. -/
theorem put_own {f out : Bytes} {off k : Nat} (ho : off ≤ out.length) (hn : off ≤ f.length) (h : f.take off = out.take off) :
    min (off + k) out.length ≤ (put f off ((out.drop off).take k)).length ∧
      (put f off ((out.drop off).take k)).take (min (off + k) out.length) = out.take (min (off + k) out.length) := by
  refine ⟨by rw [put_length, chunk_length]; omega, ?_⟩
  refine List.ext_getElem? fun i => ?_
  by_cases hi : i < min (off + k) out.length
  · rw [List.getElem?_take_of_lt hi, List.getElem?_take_of_lt hi]
    by_cases h1 : i < off
    · have hf : f[i]? = out[i]? := by
        have := congrArg (·[i]?) h
        simpa only [List.getElem?_take_of_lt h1] using this
      rw [put_before h1, hf, List.getElem?_eq_getElem (by omega)]; rfl
    · have h2 : i < off + ((out.drop off).take k).length := by rw [chunk_length]; omega
      rw [put_in (by omega) h2, chunk_get _ _ _ _ (by rw [chunk_length] at h2; omega)]
      congr 1; omega
  · rw [List.getElem?_take, if_neg hi, List.getElem?_take, if_neg hi]

theorem garbled_refl (out : Bytes) : Garbled out out := ⟨Nat.le_refl _, fun _ _ h => .inr h⟩

theorem garbled_nil (out : Bytes) : Garbled [] out := ⟨Nat.zero_le _, fun i c h => by simp at h⟩

theorem goto_get {s : St} {i j : Nat} {ph : Phase} {p : Proc} (h : (s.goto i ph).procs[j]? = some p) :
    (j ≠ i ∧ s.procs[j]? = some p) ∨ ∃ q, j = i ∧ s.procs[i]? = some q ∧ p = { q with phase := ph } := by
  unfold St.goto at h
  simp only [List.getElem?_modify] at h
  by_cases hij : i = j
  · subst hij
    cases hq : s.procs[i]? with
    | none => rw [hq] at h; simp at h
    | some q => rw [hq] at h; simp at h; exact .inr ⟨q, rfl, rfl, h.symm⟩
  · cases hq : s.procs[j]? with
    | none => rw [hq] at h; simp at h
    | some q => rw [hq] at h; simp [hij] at h; subst h; exact .inl ⟨Ne.symm hij, rfl⟩

theorem goto_other {s : St} {i j : Nat} {ph : Phase} (h : j ≠ i) : (s.goto i ph).procs[j]? = s.procs[j]? := by
  unfold St.goto
  simp only [List.getElem?_modify]
  cases s.procs[j]? <;> simp [Ne.symm h]

theorem goto_own {s : St} {i : Nat} {ph : Phase} {q : Proc} (h : s.procs[i]? = some q) :
    (s.goto i ph).procs[i]? = some { q with phase := ph } := by
  unfold St.goto
  simp only [List.getElem?_modify, h]; simp

/-- What a phase says. -/
def PhaseOk (comp : Nat → Bytes → Option Bytes) (v : Nat) (x : Bytes) : Phase → Prop
  | .compiled out => comp v x = some out
  | .writing out off => comp v x = some out ∧ off ≤ out.length
  | .running c => ∃ out, comp v x = some out ∧ Garbled c out
  | _ => True

/-- What always holds. -/
structure Inv (comp : Nat → Bytes → Option Bytes) (hash : Bytes → Nat) (v : Nat) (K : List Bytes) (s : St) : Prop where
  files : ∀ k f, s.files.get k = some f → ∃ x out, (x ∈ K ∧ hash x = k) ∧ comp v x = some out ∧ Garbled f out
  procs : ∀ (i : Nat) p, s.procs[i]? = some p → (p.version = v ∧ p.script ∈ K) ∧ PhaseOk comp v p.script p.phase

theorem Inv.goto {s : St} (h : Inv comp hash v K s) {i : Nat} {ph : Phase} (hp : ∀ q, s.procs[i]? = some q → PhaseOk comp v q.script ph) :
    Inv comp hash v K (s.goto i ph) := by
  refine ⟨h.files, fun j p hj => ?_⟩
  rcases goto_get hj with ⟨-, hj⟩ | ⟨q, rfl, hq, rfl⟩
  · exact h.procs j p hj
  · exact ⟨(h.procs _ q hq).1, hp q hq⟩

theorem Inv.setFile {s : St} (h : Inv comp hash v K s) {x out f : Bytes} (hk : x ∈ K) (hx : comp v x = some out) (hf : Garbled f out) :
    Inv comp hash v K { s with files := s.files.set (hash x) f } := by
  refine ⟨fun k g hk => ?_, h.procs⟩
  simp only [AMap.get_set] at hk
  by_cases he : hash x = k
  · rw [if_pos he] at hk; cases hk; exact ⟨x, out, ⟨‹x ∈ K›, he⟩, hx, hf⟩
  · rw [if_neg he] at hk; exact h.files k g hk

theorem Inv.step (hi : ∀ x ∈ K, ∀ y ∈ K, hash x = hash y → x = y) {s s' : St} {l : Label} (h : Inv comp hash v K s) (hv : ∀ w x, l = .spawn w x → w = v ∧ x ∈ K)
    (hs : Qc.step comp hash s l = some s') : Inv comp hash v K s' := by
  have hfile : ∀ {x out f : Bytes}, x ∈ K → comp v x = some out → s.files.get (hash x) = some f → Garbled f out := by
    intro x out f hxK hx hf
    obtain ⟨y, out', h1, h2, h3⟩ := h.files _ _ hf
    cases hi y h1.1 x hxK h1.2
    rw [hx] at h2; cases h2; exact h3
  cases l with
  | spawn w x =>
    cases hs
    refine ⟨h.files, fun j p hj => ?_⟩
    simp only at hj
    by_cases hlt : j < s.procs.length
    · rw [List.getElem?_append_left hlt] at hj; exact h.procs j p hj
    · rw [List.getElem?_append_right (by omega)] at hj
      rw [List.getElem?_singleton] at hj
      split at hj
      · cases hj; exact ⟨hv w x rfl, trivial⟩
      · cases hj
  | read i =>
    simp only [Qc.step, Option.bind_eq_some_iff] at hs
    obtain ⟨p, hp, hs⟩ := hs
    unfold readStep at hs
    split at hs
    · split at hs
      · rename_i c hc
        cases hs
        refine h.goto fun q hq => ?_
        rw [hp] at hq; cases hq
        obtain ⟨x, out, h1, h2, h3⟩ := h.files _ _ hc
        cases hi _ h1.1 _ (h.procs i p hp).1.2 h1.2
        exact ⟨out, h2, h3⟩
      · cases hs; exact h.goto fun _ _ => trivial
    · cases hs
  | compile i =>
    simp only [Qc.step, Option.bind_eq_some_iff] at hs
    obtain ⟨p, hp, hs⟩ := hs
    have hpv := (h.procs i p hp).1.1
    unfold compileStep at hs
    split at hs
    · split at hs
      · rename_i out hc
        cases hs
        refine h.goto fun q hq => ?_
        rw [hp] at hq; cases hq
        exact hpv ▸ hc
      · cases hs; exact h.goto fun _ _ => trivial
    · cases hs
  | open' i =>
    simp only [Qc.step, Option.bind_eq_some_iff] at hs
    obtain ⟨p, hp, hs⟩ := hs
    have hpk := (h.procs i p hp).2
    unfold openStep at hs
    split at hs
    · rename_i out hph
      rw [hph] at hpk
      cases hs
      refine (h.setFile (h.procs i p hp).1.2 hpk (garbled_nil _)).goto fun q hq => ?_
      have hq : s.procs[i]? = some q := hq
      rw [hp] at hq; cases hq
      exact ⟨hpk, Nat.zero_le _⟩
    · cases hs
  | write i k =>
    simp only [Qc.step, Option.bind_eq_some_iff] at hs
    obtain ⟨p, hp, hs⟩ := hs
    have hpk := (h.procs i p hp).2
    unfold writeStep at hs
    split at hs
    · rename_i out off hph
      split at hs
      · cases hs
      rw [hph] at hpk
      split at hs
      · rename_i f hf
        cases hs
        refine (h.setFile (h.procs i p hp).1.2 hpk.1 ((hfile (h.procs i p hp).1.2 hpk.1 hf).put hpk.2)).goto fun q hq => ?_
        have hq : s.procs[i]? = some q := hq
        rw [hp] at hq; cases hq
        exact ⟨hpk.1, Nat.min_le_right _ _⟩
      · cases hs
    · cases hs
  | finish i =>
    simp only [Qc.step, Option.bind_eq_some_iff] at hs
    obtain ⟨p, hp, hs⟩ := hs
    have hpk := (h.procs i p hp).2
    unfold finishStep at hs
    split at hs
    · rename_i out off hph
      rw [hph] at hpk
      split at hs
      · cases hs
        refine h.goto fun q hq => ?_
        rw [hp] at hq; cases hq
        exact ⟨out, hpk.1, garbled_refl _⟩
      · cases hs
    · cases hs
  | crash i =>
    simp only [Qc.step, Option.map_eq_some_iff] at hs
    obtain ⟨p, hp, rfl⟩ := hs
    exact h.goto fun _ _ => trivial

theorem Inv.init : Inv comp hash v K {} := ⟨fun k f h => by simp [AMap.get] at h, fun i p h => by simp at h⟩

/-- What holds if all steps are calm: a file is complete, or somebody is at it. -/
structure Exact (comp : Nat → Bytes → Option Bytes) (hash : Bytes → Nat) (v : Nat) (K : List Bytes) (s : St) : Prop extends Inv comp hash v K s where
  whole : ∀ k f, s.files.get k = some f → ∃ x out, (x ∈ K ∧ hash x = k) ∧ comp v x = some out ∧
    (f = out ∨ ∃ (j : Nat) (p : Proc) (off : Nat), s.procs[j]? = some p ∧ p.script = x ∧ p.phase = .writing out off ∧ off ≤ f.length ∧ f.take off = out.take off)
  runs : ∀ (i : Nat) p c, s.procs[i]? = some p → p.phase = .running c → comp v p.script = some c

theorem Exact.init : Exact comp hash v K {} :=
  ⟨Inv.init, fun k f h => by simp [AMap.get] at h, fun i p c h => by simp at h⟩

/-- A step that leaves the files alone, and does not take a process out of its writing. -/
theorem Exact.goto {s : St} (h : Exact comp hash v K s) {i : Nat} {ph : Phase} (hp : ∀ q, s.procs[i]? = some q → PhaseOk comp v q.script ph)
    (hw : ∀ q, s.procs[i]? = some q → ∀ out off, q.phase ≠ .writing out off) (hr : ∀ q c, s.procs[i]? = some q → ph = .running c → comp v q.script = some c) :
    Exact comp hash v K (s.goto i ph) := by
  refine ⟨h.toInv.goto hp, fun k f hk => ?_, fun j p c hj hc => ?_⟩
  · obtain ⟨x, out, h1, h2, h3⟩ := h.whole k f hk
    refine ⟨x, out, h1, h2, ?_⟩
    rcases h3 with h3 | ⟨j, p, off, hj, hx, hph, h4⟩
    · exact .inl h3
    · have : j ≠ i := by rintro rfl; exact hw p hj out off hph
      exact .inr ⟨j, p, off, by rw [goto_other this]; exact hj, hx, hph, h4⟩
  · rcases goto_get hj with ⟨-, hj⟩ | ⟨q, rfl, hq, rfl⟩
    · exact h.runs j p c hj hc
    · exact hr q c hq hc

theorem Exact.step (hi : ∀ x ∈ K, ∀ y ∈ K, hash x = hash y → x = y) {s s' : St} {l : Label} (h : Exact comp hash v K s) (hv : ∀ w x, l = .spawn w x → w = v ∧ x ∈ K)
    (hcalm : Calm hash s l) (hs : Qc.step comp hash s l = some s') : Exact comp hash v K s' := by
  have hI := h.toInv.step hi hv hs
  cases l with
  | spawn w x =>
    cases hs
    refine ⟨hI, fun k f hk => ?_, fun j p c hj hc => ?_⟩
    · obtain ⟨x, out, h1, h2, h3⟩ := h.whole k f hk
      refine ⟨x, out, h1, h2, ?_⟩
      rcases h3 with h3 | ⟨j, p, off, hj, h4⟩
      · exact .inl h3
      · exact .inr ⟨j, p, off, by rw [List.getElem?_append_left (List.getElem?_eq_some_iff.1 hj).1]; exact hj, h4⟩
    · simp only at hj
      by_cases hlt : j < s.procs.length
      · rw [List.getElem?_append_left hlt] at hj; exact h.runs j p c hj hc
      · rw [List.getElem?_append_right (by omega), List.getElem?_singleton] at hj
        split at hj
        · cases hj; cases hc
        · cases hj
  | read i =>
    simp only [Qc.step, Option.bind_eq_some_iff] at hs
    obtain ⟨p, hp, hs⟩ := hs
    unfold readStep at hs
    split at hs
    · rename_i hph
      have hw : ∀ q, s.procs[i]? = some q → ∀ out off, q.phase ≠ .writing out off := by
        intro q hq out off e; rw [hp] at hq; cases hq; rw [hph] at e; cases e
      split at hs
      · rename_i c hc
        cases hs
        have hcomp : comp v p.script = some c := by
          obtain ⟨x, out, h1, h2, h3⟩ := h.whole _ _ hc
          cases hi _ h1.1 _ (h.procs i p hp).1.2 h1.2
          rcases h3 with rfl | ⟨j, q, off, hj, hx, hqp, -⟩
          · exact h2
          · exact absurd ⟨q, List.mem_of_getElem? hj, by rw [hx], out, off, hqp⟩ (hcalm p hp)
        refine h.goto (fun q hq => ?_) hw (fun q c' hq e => ?_)
        · rw [hp] at hq; cases hq; exact ⟨c, hcomp, garbled_refl _⟩
        · rw [hp] at hq; cases hq; cases e; exact hcomp
      · cases hs; exact h.goto (fun _ _ => trivial) hw (fun _ _ _ e => by cases e)
    · cases hs
  | compile i =>
    simp only [Qc.step, Option.bind_eq_some_iff] at hs
    obtain ⟨p, hp, hs⟩ := hs
    have hpv := (h.procs i p hp).1.1
    unfold compileStep at hs
    split at hs
    · rename_i hph
      have hw : ∀ q, s.procs[i]? = some q → ∀ out off, q.phase ≠ .writing out off := by
        intro q hq out off e; rw [hp] at hq; cases hq; rw [hph] at e; cases e
      split at hs
      · rename_i out hc
        cases hs
        refine h.goto (fun q hq => ?_) hw (fun _ _ _ e => by cases e)
        rw [hp] at hq; cases hq
        exact hpv ▸ hc
      · cases hs; exact h.goto (fun _ _ => trivial) hw (fun _ _ _ e => by cases e)
    · cases hs
  | open' i =>
    simp only [Qc.step, Option.bind_eq_some_iff] at hs
    obtain ⟨p, hp, hs⟩ := hs
    have hpk := (h.procs i p hp).2
    unfold openStep at hs
    split at hs
    · rename_i out hph
      rw [hph] at hpk
      cases hs
      refine ⟨hI, fun k f hk => ?_, fun j q c hj hc => ?_⟩
      · have hk : (s.files.set (hash p.script) []).get k = some f := hk
        rw [AMap.get_set] at hk
        by_cases he : hash p.script = k
        · rw [if_pos he] at hk; cases hk
          refine ⟨p.script, out, ⟨(h.procs i p hp).1.2, he⟩, hpk, .inr ⟨i, { p with phase := .writing out 0 }, 0, ?_, rfl, rfl, Nat.le_refl _, rfl⟩⟩
          exact goto_own (s := { s with files := s.files.set (hash p.script) [] }) hp
        · rw [if_neg he] at hk
          obtain ⟨x, out', h1, h2, h3⟩ := h.whole k f hk
          refine ⟨x, out', h1, h2, ?_⟩
          rcases h3 with h3 | ⟨j, q, off, hj, hx, hqp, h4⟩
          · exact .inl h3
          · have : j ≠ i := by rintro rfl; rw [hp] at hj; cases hj; rw [hph] at hqp; cases hqp
            exact .inr ⟨j, q, off, by rw [goto_other this]; exact hj, hx, hqp, h4⟩
      · rcases goto_get hj with ⟨-, hj⟩ | ⟨q', rfl, hq, rfl⟩
        · exact h.runs j q c hj hc
        · cases hc
    · cases hs
  | write i k =>
    simp only [Qc.step, Option.bind_eq_some_iff] at hs
    obtain ⟨p, hp, hs⟩ := hs
    have hpk := (h.procs i p hp).2
    unfold writeStep at hs
    split at hs
    · rename_i out off hph
      split at hs
      · cases hs
      rw [hph] at hpk
      split at hs
      · rename_i f hf
        cases hs
        refine ⟨hI, fun k' f' hk => ?_, fun j q c hj hc => ?_⟩
        · have hk : (s.files.set (hash p.script) (put f off ((out.drop off).take k))).get k' = some f' := hk
          rw [AMap.get_set] at hk
          by_cases he : hash p.script = k'
          · rw [if_pos he] at hk; cases hk
            obtain ⟨x, out', h1, h2, h3⟩ := h.whole _ f hf
            cases hi _ h1.1 _ (h.procs i p hp).1.2 h1.2
            rw [hpk.1] at h2; cases h2
            refine ⟨p.script, out, ⟨(h.procs i p hp).1.2, he⟩, hpk.1, ?_⟩
            rcases h3 with rfl | ⟨j, q, off', hj, hx, hqp, h4, h5⟩
            · left
              have h6 := put_take (k := k) hpk.2 (Nat.le_refl _) (rfl : f.take f.length = f.take f.length)
              have h7 : (put f off ((f.drop off).take k)).length ≤ f.length := by
                have := hpk.2; rw [put_length, chunk_length]; omega
              rw [List.take_of_length_le h7, List.take_length] at h6
              exact h6.2
            · right
              by_cases hji : j = i
              · subst hji
                rw [hp] at hj; cases hj
                rw [hph] at hqp; cases hqp
                exact ⟨j, _, _, goto_own (s := { s with files := _ }) hp, rfl, rfl, put_own hpk.2 h4 h5⟩
              · exact ⟨j, q, off', by rw [goto_other hji]; exact hj, hx, hqp, put_take hpk.2 h4 h5⟩
          · rw [if_neg he] at hk
            obtain ⟨x, out', h1, h2, h3⟩ := h.whole k' f' hk
            refine ⟨x, out', h1, h2, ?_⟩
            rcases h3 with h3 | ⟨j, q, off, hj, hx, hqp, h4⟩
            · exact .inl h3
            · have : j ≠ i := by rintro rfl; rw [hp] at hj; cases hj; exact he (by rw [hx]; exact h1.2)
              exact .inr ⟨j, q, off, by rw [goto_other this]; exact hj, hx, hqp, h4⟩
        · rcases goto_get hj with ⟨-, hj⟩ | ⟨q', rfl, hq, rfl⟩
          · exact h.runs j q c hj hc
          · cases hc
      · cases hs
    · cases hs
  | finish i =>
    simp only [Qc.step, Option.bind_eq_some_iff] at hs
    obtain ⟨p, hp, hs⟩ := hs
    have hpk := (h.procs i p hp).2
    unfold finishStep at hs
    split at hs
    · rename_i out off hph
      rw [hph] at hpk
      split at hs
      · rename_i hoff
        cases hs
        refine ⟨hI, fun k f hk => ?_, fun j q c hj hc => ?_⟩
        · obtain ⟨x, out', h1, h2, h3⟩ := h.whole k f hk
          refine ⟨x, out', h1, h2, ?_⟩
          rcases h3 with h3 | ⟨j, q, off', hj, hx, hqp, h4, h5⟩
          · exact .inl h3
          · by_cases hji : j = i
            · subst hji
              rw [hp] at hj; cases hj
              rw [hph] at hqp; cases hqp
              left
              have hg : Garbled f out := by
                obtain ⟨y, out'', g1, g2, g3⟩ := h.files k f hk
                cases hi x h1.1 y g1.1 (h1.2.trans g1.2.symm)
                rw [h2] at g2; cases g2; exact g3
              rw [hoff, List.take_length, List.take_of_length_le hg.1] at h5
              exact h5
            · exact .inr ⟨j, q, off', by rw [goto_other hji]; exact hj, hx, hqp, h4, h5⟩
        · rcases goto_get hj with ⟨-, hj⟩ | ⟨q', rfl, hq, rfl⟩
          · exact h.runs j q c hj hc
          · rw [hp] at hq; cases hq; cases hc; exact hpk.1
      · cases hs
    · cases hs
  | crash i =>
    simp only [Qc.step, Option.map_eq_some_iff] at hs
    obtain ⟨p, hp, rfl⟩ := hs
    exact h.goto (fun _ _ => trivial) (fun q hq out off => hcalm q hq out off) (fun _ _ _ e => by cases e)

end Verif.Qc
