import Verif.Lemmas.Codec
/-! # C71: compressed messages -/
namespace Verif.Cd

/-- C71. Whatever any number of users do at the same time, and whichever encoders and decoders the pools give them: the writer of a user that closed
its encoder has got the compression of what that user wrote, and nothing else; and no one else's writer has got anything before the close. -/
theorem C71_compress (zip unzip : Bytes → Bytes) {os : List Op} {w : W} {tr : List (Op × Bytes)} (h : run (step zip unzip) {} os = some (w, tr)) (s : Nat) :
    (.close s ∈ os → w.sinks[s]? = some (zip (sent s os))) ∧ (s < writers os → .close s ∉ os → w.sinks[s]? = some []) := by
  obtain ⟨i, -⟩ := run_inv os (start_inv zip unzip).1 (start_inv zip unzip).2 h
  simp only [List.nil_append] at i
  constructor
  · intro hc
    by_cases hl : s < writers os
    · rcases i.enc s hl with ⟨-, -, h3⟩ | ⟨h1, -, -⟩
      · exact h3
      · exact absurd hc h1
    · exact absurd hc (i.enone s (by omega)).2
  · intro hl hc
    rcases i.enc s hl with ⟨h1, -, -⟩ | ⟨-, -, h3⟩
    · exact absurd h1 hc
    · exact h3

/-- C71. What a user reads is what its own input decompresses to: the beginning of it at any time, and all of it when it was told of the end. -/
theorem C71_decompress (zip unzip : Bytes → Bytes) {os : List Op} {w : W} {tr : List (Op × Bytes)} (h : run (step zip unzip) {} os = some (w, tr))
    {r : Nat} {d : Bytes} (hd : (inputs os)[r]? = some d) : got r tr <+: unzip d ∧ (ended r os → got r tr = unzip d) := by
  obtain ⟨-, j⟩ := run_inv os (start_inv zip unzip).1 (start_inv zip unzip).2 h
  simp only [List.nil_append] at j
  rcases j.dec r d hd with ⟨h1, -, h3⟩ | ⟨h1, left, -, h3⟩
  · exact ⟨by rw [h3]; exact List.prefix_refl _, fun _ => h3⟩
  · exact ⟨⟨left, h3⟩, fun he => absurd he h1⟩

/-- The user an operation is of, if it uses a codec already got. -/
def Op.late (os : List Op) : Op → Prop
  | .write s _ | .close s => .close s ∈ os
  | .read r _ _ | .writeTo r => ended r os
  | _ => False

/-- C71. An operation panics exactly if its user has closed the encoder before, or was told of the end before. -/
theorem C71_panic_iff (zip unzip : Bytes → Bytes) {os : List Op} {w : W} {tr : List (Op × Bytes)} (h : run (step zip unzip) {} os = some (w, tr)) (o : Op) :
    step zip unzip w o = .panic ↔ o.late os := by
  obtain ⟨i, j⟩ := run_inv os (start_inv zip unzip).1 (start_inv zip unzip).2 h
  simp only [List.nil_append] at i j
  have henc : ∀ s, w.encs.see s = some none ↔ .close s ∈ os := by
    intro s
    by_cases hl : s < writers os
    · rcases i.enc s hl with ⟨h1, h2, -⟩ | ⟨h1, h2, -⟩
      · exact ⟨fun _ => h1, fun _ => h2⟩
      · exact ⟨fun hn => (by rw [h2] at hn; cases hn), fun hn => absurd hn h1⟩
    · refine ⟨fun hn => ?_, fun hn => absurd hn (i.enone s (by omega)).2⟩
      have := see_lt hn
      rw [i.elen.1] at this; exact absurd this hl
  have hdec : ∀ r, w.decs.see r = some none ↔ ended r os := by
    intro r
    by_cases hl : r < (inputs os).length
    · obtain ⟨d, hd⟩ : ∃ d, (inputs os)[r]? = some d := ⟨_, List.getElem?_eq_getElem hl⟩
      rcases j.dec r d hd with ⟨h1, h2, -⟩ | ⟨h1, left, h2, -⟩
      · exact ⟨fun _ => h1, fun _ => h2⟩
      · exact ⟨fun hn => (by rw [h2] at hn; cases hn), fun hn => absurd hn h1⟩
    · refine ⟨fun hn => ?_, fun hn => absurd hn (j.dnone r (by omega)).2⟩
      have := see_lt hn
      rw [j.dlen] at this; exact absurd this hl
  cases o with
  | compress pick => simp only [step, Op.late, iff_false]; split <;> intro hn <;> cases hn
  | decompress d pick => simp only [step, Op.late, iff_false]; split <;> intro hn <;> cases hn
  | write s p =>
    simp only [step, Op.late, ← henc s]
    split <;> rename_i e <;> simp [e]
  | close s =>
    simp only [step, Op.late, ← henc s]
    split <;> rename_i e <;> simp [e]
  | read r k fin =>
    simp only [step, Op.late, ← hdec r]
    split <;> rename_i e <;> simp [e]
    split
    · split <;> simp
    · simp
  | writeTo r =>
    simp only [step, Op.late, ← hdec r]
    split <;> rename_i e <;> simp [e]

/-- C71. There and back: what one user compressed, another decompresses to what was written, if zstd is right. -/
theorem C71_roundtrip (zip unzip : Bytes → Bytes) (hz : ∀ b, unzip (zip b) = b) {os : List Op} {w : W} {tr : List (Op × Bytes)}
    (h : run (step zip unzip) {} os = some (w, tr)) {s r : Nat} {d : Bytes} (hs : w.sinks[s]? = some d) (hc : .close s ∈ os)
    (hd : (inputs os)[r]? = some d) (he : ended r os) : got r tr = sent s os := by
  rw [(C71_decompress zip unzip h hd).2 he]
  have := ((C71_compress zip unzip h s).1 hc).symm.trans hs
  rw [← Option.some.inj this, hz]

/-- Two writers at the same time and two readers, one after another with the same decoder. -/
def sample : List Op := [.compress none, .write 0 [1], .compress none, .write 1 [7], .write 0 [2], .close 0, .write 1 [8], .close 1,
  .decompress [2, 1] none, .read 0 1 false, .read 0 5 true, .decompress [8, 7] (some 0), .compress (some 0), .writeTo 1]

example : ∃ w tr, run (step List.reverse List.reverse) {} sample = some (w, tr) ∧ w.sinks = [[2, 1], [8, 7], []] ∧ got 0 tr = [1, 2] ∧ got 1 tr = [7, 8] := by
  refine ⟨_, _, rfl, ?_⟩
  decide +kernel

/-- Refuted: that a user may go on reading at the end (as readers commonly allow), or close twice: it panics. -/
theorem C71_again : ∃ w tr, run (step id id) {} sample = some (w, tr) ∧ step id id w (.read 0 1 false) = .panic ∧ step id id w (.close 0) = .panic := by
  refine ⟨_, _, rfl, ?_⟩
  decide +kernel

end Verif.Cd
