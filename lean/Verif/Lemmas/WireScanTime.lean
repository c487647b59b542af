import Verif.Spec.WireScan
import Mathlib.Tactic.Linarith
/-!
# Go's times
-/
namespace Verif.Rq
open Tm (ScanTime defaultRange)

theorem wrap_eq {x : Int} (h : -2 ^ 63 ≤ x ∧ x < 2 ^ 63) : wrap x = x := by
  unfold wrap; omega

theorem wrap_over {x : Int} : ∃ k : Int, wrap x = x - k * 2 ^ 64 ∧ -2 ^ 63 ≤ wrap x ∧ wrap x < 2 ^ 63 := by
  refine ⟨(x + 2 ^ 63) / 2 ^ 64, ?_, ?_, ?_⟩ <;> unfold wrap <;> omega

theorem wrap_bounds (x : Int) : -2 ^ 63 ≤ wrap x ∧ wrap x < 2 ^ 63 := by
  unfold wrap; omega

/-- To the nearest int64. -/
def clamp (x : Int) : Int := if x < -2 ^ 63 then -2 ^ 63 else if 2 ^ 63 ≤ x then 2 ^ 63 - 1 else x

theorem tdiv_wrap_ne {s : Int} (h : ¬ (-2 ^ 63 ≤ s * 1000000000 ∧ s * 1000000000 < 2 ^ 63)) : (wrap (s * 1000000000)).tdiv 1000000000 ≠ s := by
  intro e
  obtain ⟨k, hk, h1, h2⟩ := wrap_over (x := s * 1000000000)
  have e1 := Int.mul_tdiv_add_tmod (wrap (s * 1000000000)) 1000000000
  have e2 := Int.tmod_lt_of_pos (wrap (s * 1000000000)) (b := 1000000000) (by decide)
  have e3 := Int.lt_tmod_of_pos (wrap (s * 1000000000)) (b := 1000000000) (by decide)
  rw [e] at e1
  generalize wrap (s * 1000000000) = w at *
  generalize w.tmod 1000000000 = m at *
  have hk0 : k = 0 := by omega
  subst hk0
  omega

theorem asDuration_eq {s : Stamp} (h : s.Ok) (hs : s.Signed) : asDuration s = clamp s.at := by
  obtain ⟨⟨h1, h2⟩, h3, h4⟩ := h
  obtain ⟨s1, s2⟩ := hs
  unfold asDuration clamp Stamp.at
  by_cases hr : -2 ^ 63 ≤ s.seconds * 1000000000 ∧ s.seconds * 1000000000 < 2 ^ 63
  · rw [wrap_eq hr, Int.mul_tdiv_cancel _ (by decide)]
    obtain ⟨k, hk, k1, k2⟩ := wrap_over (x := s.seconds * 1000000000 + s.nanos)
    generalize wrap (s.seconds * 1000000000 + s.nanos) = w at *
    norm_num at *
    split_ifs <;> omega
  · have hne := tdiv_wrap_ne hr
    rw [if_pos (.inl hne)]
    by_cases h0 : s.seconds = 0
    · rw [h0] at hr; exact absurd (by decide) hr
    · norm_num at *
      split_ifs <;> omega

theorem minus_offset {s : Stamp} (h : s.Ok) (hs : s.Signed) : wrap (-asDuration s) = -reach s.at := by
  rw [asDuration_eq h hs]
  unfold clamp reach
  split_ifs <;> (unfold wrap; omega)

theorem reach_bounds (x : Int) : -2 ^ 63 ≤ -reach x ∧ -reach x < 2 ^ 63 := by
  unfold reach; split_ifs <;> omega

theorem addSec_eq {a d : Int} (h1 : -2 ^ 62 - 2 ^ 51 ≤ a ∧ a ≤ 2 ^ 62 + 2 ^ 51) (h2 : -2 ^ 40 ≤ d ∧ d ≤ 2 ^ 40) : addSec a d = a + d := by
  have : wrap (a + d) = a + d := wrap_eq (by omega)
  unfold addSec
  rw [this, if_pos (by omega)]

theorem add_eq {t : GoTime} (d : Int) (ht : (-2 ^ 62 - 2 ^ 51 ≤ t.sec ∧ t.sec ≤ 2 ^ 62 + 2 ^ 51) ∧ 0 ≤ t.nsec ∧ t.nsec < 1000000000)
    (hd : -2 ^ 63 ≤ d ∧ d < 2 ^ 63) :
    (t.add d).unixNano = t.unixNano + d ∧ (t.sec - 2 ^ 40 ≤ (t.add d).sec ∧ (t.add d).sec ≤ t.sec + 2 ^ 40) ∧ 0 ≤ (t.add d).nsec ∧ (t.add d).nsec < 1000000000 := by
  have e1 := Int.mul_tdiv_add_tmod d 1000000000
  have e2 := Int.tmod_lt_of_pos d (b := 1000000000) (by decide)
  have e3 := Int.lt_tmod_of_pos d (b := 1000000000) (by decide)
  unfold GoTime.add GoTime.unixNano
  generalize d.tmod 1000000000 = m at *
  generalize d.tdiv 1000000000 = q at *
  split_ifs
  · rw [addSec_eq ht.1 (by omega)]
    simp only
    omega
  · rw [addSec_eq ht.1 (by omega)]
    simp only
    omega
  · rw [addSec_eq ht.1 (by omega)]
    simp only
    omega

theorem unix_eq {s n : Int} (h : -2 ^ 62 ≤ s ∧ s ≤ 2 ^ 62) (hn : -2 ^ 31 ≤ n ∧ n < 2 ^ 31) :
    (unix s n).unixNano = s * 1000000000 + n ∧ (-2 ^ 62 - 2 ^ 50 ≤ (unix s n).sec ∧ (unix s n).sec ≤ 2 ^ 62 + 2 ^ 50) ∧ 0 ≤ (unix s n).nsec ∧
      (unix s n).nsec < 1000000000 := by
  have e1 := Int.mul_tdiv_add_tmod n 1000000000
  have e2 := Int.tmod_lt_of_pos n (b := 1000000000) (by decide)
  have e3 := Int.lt_tmod_of_pos n (b := 1000000000) (by decide)
  unfold unix GoTime.unixNano unixToInternal
  generalize n.tmod 1000000000 = m at *
  generalize n.tdiv 1000000000 = q at *
  split_ifs
  · rw [wrap_eq (x := s + q) (by omega), wrap_eq (x := s + q - 1) (by omega), wrap_eq (by omega)]
    simp only
    omega
  · rw [wrap_eq (x := s + q) (by omega), wrap_eq (by omega)]
    simp only
    omega
  · rw [wrap_eq (by omega)]
    simp only
    omega

end Verif.Rq
