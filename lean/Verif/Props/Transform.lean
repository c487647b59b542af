import Verif.Lemmas.Transform
import Verif.Props.Labels
/-!
# C18–C20: labels and time bounds of samples
-/
namespace Verif
open Tm Bt Tf

theorem listDict_lawful : listDict.Lawful := by
  have key : ∀ {st : List Bytes} {k st' n}, listDict.tr st k = some (st', n) →
      (st'.length ≤ 2 ^ 64 ∨ st' = st) ∧ listDict.look st' k = some n ∧
      ∀ a, a ≠ k → listDict.look st' a = listDict.look st a := by
    intro st k st' n h
    simp only [listDict] at h ⊢
    split at h
    · cases h; simp_all
    · rename_i hk
      split at h
      · cases h
        refine ⟨.inl (by simp; omega), by simp [List.idxOf_append, hk], fun a ha => ?_⟩
        by_cases hm : a ∈ st
        · simp [hm, List.idxOf_append]
        · simp [hm, ha]
      · cases h
  refine ⟨fun {st k st' n} hg h => ?_, fun {st k st' n} _ h => (key h).2.1, fun {st k st' n a m} _ h hl => ?_, fun {st k st' n a m} _ h hl => ?_⟩
  · rcases (key h).1 with h | rfl
    · exact h
    · exact hg
  · by_cases ha : a = k
    · subst ha
      simp only [listDict] at h hl ⊢
      by_cases hm : a ∈ st
      · simp [hm] at h hl; obtain ⟨rfl, rfl⟩ := h; simp [hm, hl]
      · simp [hm] at hl
    · rw [(key h).2.2 a ha]; exact hl
  · by_cases ha : a = k
    · exact .inl ha
    · exact .inr ((key h).2.2 a ha ▸ hl)

theorem listDict_injective : listDict.Injective := by
  have key : ∀ {st : List Bytes} {a : Bytes} {n : Nat}, listDict.look st a = some n → st[n]? = some a ∧ n < st.length := by
    intro st a n h
    simp only [listDict] at h
    split at h
    · rename_i hm
      cases h
      have := List.idxOf_lt_length_of_mem hm
      exact ⟨by rw [List.getElem?_eq_getElem this, List.getElem_idxOf], this⟩
    · cases h
  refine ⟨fun {st a b n} _ h h' => ?_, fun {st a n} _ h => (key h).1, fun {st a n} hg h => ?_⟩
  · have h1 := (key h).1; have h2 := (key h').1; rw [h1] at h2; exact Option.some.inj h2
  · have := (key h).2; have : st.length ≤ 2 ^ 64 := hg; omega

/-- **C18.** Processing a sample adds one batch entry, for its id, whose columns are exactly the ids of the labels its payload
carries (and of one resource label, see C20); each of those labels is in the dictionary. -/
theorem C18_labels_exact {σ : Type} (D : Dict σ) (hD : D.Lawful) (c c' : Ctx σ) (s s' : Sample) (hg : D.Good c.st)
    (h : processSample D.tr s c = some (c', s')) :
    ∃ ps, c'.batch.entries = c.batch.entries ++ [{ id := s.id, labels := some ps, q := ymdh (toInt64 s'.minTs) }] ∧
      (∀ l, Carries s.data l → ∃ n, D.look c'.st l.encode = some n ∧ n ∈ ps) ∧
      (∀ n, n ∈ ps → ∃ l, (Carries s.data l ∨ l = { resource := c.resource }) ∧ D.look c'.st l.encode = some n) := by
  obtain ⟨-, -, -, -, e, hb, he⟩ := processSample_spec hD hg h
  obtain ⟨ps, h1, -, h3⟩ := he.labels
  obtain ⟨id, labels, q⟩ := e
  have h1 : labels = some ps := h1
  have hid : id = s.id := he.id
  have hq : q = ymdh (toInt64 s'.minTs) := he.q
  subst h1; subst hid; subst hq
  refine ⟨ps, by rw [hb], fun l hl => ?_, fun n hn => (h3 n).1 hn⟩
  obtain ⟨n, hn⟩ := he.known l (.inl hl)
  exact ⟨n, hn, (h3 n).2 ⟨l, .inl hl, hn⟩⟩

/-- Processing always succeeds with a dictionary that always answers: C18 is not vacuous. -/
theorem C18_processing_total {σ : Type} (D : Dict σ) (htot : ∀ st k, (D.tr st k).isSome) (c : Ctx σ) (s : Sample) :
    (processSample D.tr s c).isSome := by
  rw [processSample_eq, Option.isSome_map]
  generalize (c.st, ([] : Bm)) = x
  induction (resLabel c.resource :: dataLabels s.data) generalizing x with
  | nil => rfl
  | cons l ls ih =>
    obtain ⟨st, ps⟩ := x
    simp only [transAll]
    have := htot st l.encode
    cases hh : D.tr st l.encode with
    | none => rw [hh] at this; cases this
    | some y => exact ih _

/-- A log payload with every kind of label. -/
def exampleLogs : Data :=
  .logs [{ schema := [115], resource := some ⟨[⟨[104], some (.str [118])⟩, ⟨[110], some (.other [1])⟩]⟩,
           scopes := [{ schema := [116], scope := some { name := [117], version := [118], attrs := [⟨[97], some (.str [98])⟩] },
                        items := [{ ts := 5, severity := [119], attrs := [⟨[99], some (.str [100])⟩], spanId := some [1], traceId := some [255] }] }] }]

example : ((processSample listDict.tr { id := 9, data := exampleLogs } { st := [] }).map fun r =>
    (r.1.st.length, r.1.batch.entries.map (·.labels), r.2.minTs)) =
    some (11, [some [0, 1, 2, 3, 4, 5, 6, 7, 8, 9, 10]], 5) := by decide +kernel

/-- **C19, refuted.** With a zero timestamp in the middle, the stored minimum is not the minimum of the data. -/
theorem C19_min_refuted :
    ∃ (s : Sample) (c' : Ctx (List Bytes)) (s' : Sample),
      processSample listDict.tr s { st := [] } = some (c', s') ∧
      ∃ a, HasTime s.data a a ∧ a < s'.minTs := by
  obtain ⟨r, h1, h2⟩ := exists_of_any (o := processSample listDict.tr
    { id := 0, data := .logs [{ scopes := [{ items := [{ ts := 5 }, { ts := 0 }, { ts := 7 }] }] }] } { st := [] })
    (fun r => decide (r.2.minTs = 7)) (by decide +kernel)
  refine ⟨_, r.1, r.2, h1, 0, ?_, by rw [of_decide_eq_true h2]; decide⟩
  exact ⟨rfl, _, List.mem_singleton_self _, _, List.mem_singleton_self _, { ts := 0 }, by simp, rfl⟩

/-- **C19, what holds.** When all timestamps are positive, the stored minimum is the least timestamp (missing for the full
claim: payloads with a zero timestamp, `C19_min_refuted`). -/
theorem C19_min_partial {σ : Type} (D : Dict σ) (c c' : Ctx σ) (s s' : Sample)
    (h : processSample D.tr s c = some (c', s')) (hpos : ∀ a b, HasTime s.data a b → 0 < a) :
    ∀ a b, HasTime s.data a b → s'.minTs ≤ a := by
  rw [processSample_eq] at h
  obtain ⟨x, -, hx⟩ := Option.map_eq_some_iff.1 h
  simp only [Prod.mk.injEq] at hx
  obtain ⟨-, rfl⟩ := hx
  intro a b hab
  exact (bounds_min_le (dataTimes s.data) 0 0 fun a b h => hpos a b (mem_dataTimes.1 h)).2 a b (mem_dataTimes.2 hab)

/-- **C19.** The stored minimum is always the start of some record of the payload; a payload without records gets 0. -/
theorem C19_min_attained {σ : Type} (D : Dict σ) (c c' : Ctx σ) (s s' : Sample)
    (h : processSample D.tr s c = some (c', s')) :
    (∃ b, HasTime s.data s'.minTs b) ∨ ((∀ a b, ¬ HasTime s.data a b) ∧ s'.minTs = 0) := by
  rw [processSample_eq] at h
  obtain ⟨x, -, hx⟩ := Option.map_eq_some_iff.1 h
  simp only [Prod.mk.injEq] at hx
  obtain ⟨-, rfl⟩ := hx
  by_cases hne : dataTimes s.data = []
  · right
    refine ⟨fun a b hab => ?_, by simp [hne, bounds]⟩
    have := mem_dataTimes.2 hab
    rw [hne] at this; simp at this
  · left
    obtain ⟨b, hb⟩ := bounds_min_mem' (dataTimes s.data) hne 0
    exact ⟨b, mem_dataTimes.1 hb⟩

/-- **C19.** The stored maximum is always the latest end of the payload's records (0 when there are none). -/
theorem C19_max_exact {σ : Type} (D : Dict σ) (c c' : Ctx σ) (s s' : Sample)
    (h : processSample D.tr s c = some (c', s')) :
    (∀ a b, HasTime s.data a b → b ≤ s'.maxTs) ∧ (s'.maxTs = 0 ∨ ∃ a, HasTime s.data a s'.maxTs) := by
  rw [processSample_eq] at h
  obtain ⟨x, -, hx⟩ := Option.map_eq_some_iff.1 h
  simp only [Prod.mk.injEq] at hx
  obtain ⟨-, rfl⟩ := hx
  obtain ⟨-, h2, h3⟩ := bounds_max (dataTimes s.data) 0 0
  refine ⟨fun a b hab => h2 a b (mem_dataTimes.2 hab), ?_⟩
  rcases h3 with h3 | ⟨a, h3⟩
  · exact .inl h3
  · exact .inr ⟨a, mem_dataTimes.1 h3⟩

/-- Spans: bounds from starts and ends, hypotheses met. -/
example : ((processSample listDict.tr { id := 9, data := .traces [{ scopes := [{ items :=
    [{ start := 10, stop := 20 }, { start := 7, stop := 9 }, { start := 12, stop := 13 }] }] }] } { st := [] }).map
      fun r => (r.2.minTs, r.2.maxTs)) = some (7, 20) := by decide +kernel

/-- No label of the data itself is a resource label. -/
theorem carries_prefix {d : Data} {l : Label} (h : Carries d l) : l.pfx ≠ Pfx.unknown := by
  have ht : ∀ {r p s}, p ≠ Pfx.unknown → TextLabel r p s l → l.pfx ≠ Pfx.unknown := by rintro r p s hp ⟨-, rfl⟩; exact hp
  have ha : ∀ {r p kvs}, p ≠ Pfx.unknown → AttrLabel r p kvs l → l.pfx ≠ Pfx.unknown := by
    rintro r p s hp ⟨_, _, _, _, _, rfl⟩; exact hp
  have hi : ∀ {r p s}, p ≠ Pfx.unknown → IdLabel r p s l → l.pfx ≠ Pfx.unknown := by rintro r p s hp ⟨_, _, rfl⟩; exact hp
  have hgrp : ∀ {α : Type} {r : Int} {P : α → Label → Prop} {rs : List (ResourceG α)}, (∀ x, P x l → l.pfx ≠ Pfx.unknown) →
      GroupLabel r P rs l → l.pfx ≠ Pfx.unknown := by
    intro α r P rs hP h
    obtain ⟨rm, -, h⟩ := h
    rcases h with h | ⟨_, -, h⟩ | ⟨sm, -, h⟩
    · exact ht (by decide) h
    · exact ha (by decide) h
    · rcases h with h | ⟨_, -, h⟩ | ⟨x, -, h⟩
      · exact ht (by decide) h
      · rcases h with h | h | h
        · exact ht (by decide) h
        · exact ht (by decide) h
        · exact ha (by decide) h
      · exact hP x h
  cases d with
  | metrics rs =>
    refine hgrp (fun m h => ?_) h
    rcases h with rfl | ⟨d, -, p, -, h⟩
    · show Pfx.name ≠ Pfx.unknown; decide
    · exact ha (by decide) h
  | logs rs =>
    refine hgrp (fun x h => ?_) h
    rcases h with h | h | h | h
    · exact ht (by decide) h
    · exact ha (by decide) h
    · exact hi (by decide) h
    · exact hi (by decide) h
  | traces rs =>
    refine hgrp (fun x h => ?_) h
    rcases h with h | h | h | h
    · exact ht (by decide) h
    · exact hi (by decide) h
    · exact hi (by decide) h
    · exact hi (by decide) h
  | none => exact h.elim

/-- **C20, exact.** The resource label a sample gets is that of the resource in force *before* it: the signal of the last
earlier sample that had data. Only that one: no other resource label is among its columns. -/
theorem C20_label_of_previous {σ : Type} (D : Dict σ) (hD : D.Lawful) (hI : D.Injective) (c c1 c' : Ctx σ)
    (pre : List Sample) (pre' : List Sample) (s s' : Sample) (hg : D.Good c.st)
    (h0 : processAll D.tr pre c = some (c1, pre')) (h : processSample D.tr s c1 = some (c', s')) :
    ∃ ps, c'.batch.entries = c1.batch.entries ++ [{ id := s.id, labels := some ps, q := ymdh (toInt64 s'.minTs) }] ∧
      ∀ r n, D.look c'.st (Label.encode { resource := r }) = some n →
        (n ∈ ps ↔ r = ((pre.filterMap (·.data.signal)).getLast?).getD c.resource) := by
  obtain ⟨g1, -, hr, -⟩ := processAll_spec hD hg h0
  have hres : c1.resource = ((pre.filterMap (·.data.signal)).getLast?).getD c.resource := by rw [hr, after_all]
  obtain ⟨ps, hb, -, hps⟩ := C18_labels_exact D hD c1 c' s s' g1 h
  obtain ⟨g2, -, -, -, e, hb', he⟩ := processSample_spec hD g1 h
  refine ⟨ps, hb, fun r n hn => ?_⟩
  have hps2 : n ∈ ps ↔ ∃ l, (Carries s.data l ∨ l = resLabel c1.resource) ∧ D.look c'.st l.encode = some n := by
    obtain ⟨ps2, h1, -, h3⟩ := he.labels
    have : e.labels = some ps := by
      have := hb'.symm ▸ hb
      simp only [List.append_cancel_left_eq, List.cons.injEq, and_true] at this
      rw [this]
    rw [this] at h1; cases h1
    exact h3 n
  rw [← hres, hps2]
  constructor
  · rintro ⟨l, hl, hln⟩
    have henc := hI.inj g2 hn hln
    have hsep := C01_resource_prefix_separated { resource := r } l
    rcases hl with hl | rfl
    · exact absurd henc (hsep (.inr fun e => carries_prefix hl e.symm))
    · by_cases e : r = c1.resource
      · exact e
      · exact absurd henc (hsep (.inl e))
  · rintro rfl
    exact ⟨resLabel c1.resource, .inr rfl, hn⟩

/-- **C20, refuted.** Two samples, logs then metrics, in a new store: neither gets its own resource label (the label of the
metrics signal is not even in the dictionary). -/
theorem C20_own_signal_refuted :
    ∃ r, processAll listDict.tr [{ id := 0, data := .logs [] }, { id := 1, data := .metrics [] }] { st := [] } = some r ∧
      (r.1.batch.entries.map (·.labels) = [some [0], some [1]] ∧
       listDict.look r.1.st (Label.encode { resource := Res.logs }) = some 1 ∧
       listDict.look r.1.st (Label.encode { resource := Res.metrics }) = none) := by
  obtain ⟨r, h1, h2⟩ := exists_of_any (o := processAll listDict.tr [{ id := 0, data := .logs [] }, { id := 1, data := .metrics [] }] { st := [] })
    (fun r => decide (r.1.batch.entries.map (·.labels) = [some [0], some [1]] ∧
       listDict.look r.1.st (Label.encode { resource := Res.logs }) = some 1 ∧
       listDict.look r.1.st (Label.encode { resource := Res.metrics }) = none)) (by decide +kernel)
  exact ⟨r, h1, of_decide_eq_true h2⟩

/-- **C20, what holds.** A sample gets its own resource label when the last earlier sample with data had the same signal
(missing: all other cases, where by `C20_label_of_previous` it does not). -/
theorem C20_own_signal_partial {σ : Type} (D : Dict σ) (hD : D.Lawful) (c c1 c' : Ctx σ)
    (pre pre' : List Sample) (s s' : Sample) (hg : D.Good c.st)
    (h0 : processAll D.tr pre c = some (c1, pre')) (h : processSample D.tr s c1 = some (c', s')) (r : Int)
    (hs : s.data.signal = some r) (hprev : (pre.filterMap (·.data.signal)).getLast? = s.data.signal) :
    ∃ ps n, c'.batch.entries = c1.batch.entries ++ [{ id := s.id, labels := some ps, q := ymdh (toInt64 s'.minTs) }] ∧
      D.look c'.st (Label.encode { resource := r }) = some n ∧ n ∈ ps := by
  obtain ⟨g1, -, hr, -⟩ := processAll_spec hD hg h0
  obtain ⟨-, -, -, -, e, hb, he⟩ := processSample_spec hD g1 h
  rw [after_all, hprev, hs, Option.getD_some] at hr
  obtain ⟨ps, h1, -, h3⟩ := he.labels
  obtain ⟨n, hn⟩ := he.known (resLabel c1.resource) (.inr rfl)
  obtain ⟨id, labels, q⟩ := e
  have h1 : labels = some ps := h1
  have hid : id = s.id := he.id
  have hq : q = ymdh (toInt64 s'.minTs) := he.q
  subst h1; subst hid; subst hq
  refine ⟨ps, n, by rw [hb], by rw [hr] at hn; exact hn, (h3 n).2 ⟨_, .inr rfl, hn⟩⟩

/-- Non-vacuity: two log samples in a row; the second one has the logs label (id 1). -/
example : ((processAll listDict.tr [{ id := 0, data := .logs [] }, { id := 1, data := .logs [] }] { st := [] }).map fun r =>
    (r.1.batch.entries.map (·.labels), listDict.look r.1.st (Label.encode { resource := Res.logs }))) =
    some ([some [0], some [1]], some 1) := by decide +kernel

end Verif
