import Verif.Lemmas.Store3
/-! Two dictionaries that agree on the keys of a history lead to the same store. -/
namespace Verif.St
open Tm Tf
variable {σ : Type} {D D' : Dict σ} {K : List Bytes}

structure Agree (D D' : Dict σ) (K : List Bytes) : Prop where
  tr : ∀ st, ∀ k ∈ K, D'.tr st k = D.tr st k
  look : D'.look = D.look
  keyOf : D'.keyOf = D.keyOf

theorem Agree.transAll (h : Agree D D' K) : ∀ (ls : List Label) (x : σ × Bm), (∀ l ∈ ls, l.encode ∈ K) → transAll D'.tr ls x = transAll D.tr ls x := by
  intro ls
  induction ls with
  | nil => intro x _; rfl
  | cons l ls ih =>
    rintro ⟨st, ps⟩ hl
    simp only [Tf.transAll]
    rw [h.tr st _ (hl l (by simp))]
    cases D.tr st l.encode with
    | none => rfl
    | some y => exact ih _ fun l h => hl l (by simp [h])

theorem Agree.processSample (h : Agree D D' K) (s : Sample) (c : Ctx σ) (ok : Bool) (hk : ∀ l, Offered.Uses ⟨c.resource, s, ok⟩ l → l.encode ∈ K) :
    processSample D'.tr s c = processSample D.tr s c := by
  rw [processSample_eq, processSample_eq, h.transAll]
  intro l hl
  rcases List.mem_cons.1 hl with rfl | hl
  · exact hk _ (.inr rfl)
  · exact hk _ (.inl (mem_dataLabels.1 hl))

theorem processSample_resource {tr : Translator σ} {s s' : Sample} {c c' : Ctx σ} (h : processSample tr s c = some (c', s')) :
    c'.resource = s.data.signal.getD c.resource := by
  rw [processSample_eq] at h
  cases ht : Tf.transAll tr (resLabel c.resource :: dataLabels s.data) (c.st, []) with
  | none => rw [ht] at h; cases h
  | some x => rw [ht] at h; cases h; rfl

theorem processAll_resource {tr : Translator σ} : ∀ {ss ss' : List Sample} {c c' : Ctx σ}, processAll tr ss c = some (c', ss') →
    c'.resource = ss.foldl (fun r x => x.data.signal.getD r) c.resource := by
  intro ss
  induction ss with
  | nil => intro ss' c c' h; cases h; rfl
  | cons s ss ih =>
    intro ss' c c' h
    simp only [processAll, Option.bind_eq_bind, Option.bind_eq_some_iff] at h
    obtain ⟨⟨c1, s1⟩, h1, ⟨c2, ss2⟩, h2, h3⟩ := h
    cases h3
    rw [ih h2, processSample_resource h1]; rfl

theorem Agree.processAll (h : Agree D D' K) (ok : Bool) : ∀ (ss : List Sample) (c : Ctx σ), (∀ o ∈ tag ok c.resource ss, ∀ l, o.Uses l → l.encode ∈ K) →
    processAll D'.tr ss c = processAll D.tr ss c := by
  intro ss
  induction ss with
  | nil => intro c _; rfl
  | cons s ss ih =>
    intro c hk
    simp only [Tf.processAll]
    rw [h.processSample s c ok (hk ⟨c.resource, s, ok⟩ (by simp [tag]))]
    cases h1 : Tf.processSample D.tr s c with
    | none => rfl
    | some x =>
      obtain ⟨c1, s1⟩ := x
      simp only [Option.bind_eq_bind, Option.bind_some]
      rw [ih c1]
      rw [processSample_resource h1]
      intro o ho
      exact hk o (by simp [tag, ho])

theorem Agree.save (h : Agree D D' K) (ok : Bool) (s : Store σ) (fl : Flush) (hk : ∀ o ∈ tag ok s.ctx.resource fl.samples, ∀ l, o.Uses l → l.encode ∈ K) :
    saveSamples D' s fl = saveSamples D s fl := by
  have e : processSamples D'.tr fl.samples s.ctx = processSamples D.tr fl.samples s.ctx := by
    unfold processSamples; rw [h.processAll ok fl.samples s.ctx hk]
  unfold saveSamples
  rw [e]

theorem save_resource (s : Store σ) (fl : Flush) (h : (saveSamples D s fl).2 ≠ .exit) :
    (saveSamples D s fl).1.ctx.resource = fl.samples.foldl (fun r x => x.data.signal.getD r) s.ctx.resource := by
  unfold saveSamples at h ⊢
  cases hp : processSamples D.tr fl.samples s.ctx with
  | none => rw [hp] at h; exact absurd rfl h
  | some x =>
    obtain ⟨ctx, ss, f⟩ := x
    have hr : ctx.resource = fl.samples.foldl (fun r x => x.data.signal.getD r) s.ctx.resource := by
      simp only [processSamples, Option.bind_eq_bind, Option.bind_eq_some_iff] at hp
      obtain ⟨⟨c1, s1⟩, h1, h2⟩ := hp
      have := processAll_resource h1
      cases h2
      exact this
    rw [← hr]
    cases f with
    | none => rfl
    | some f =>
      simp only
      cases Df.groupViews ss [] with
      | none => rfl
      | some m => simp only; split <;> rfl

theorem Agree.run (h : Agree D D' K) : ∀ (ops : List (Op σ)) (s : Store σ), Valid D s ops → (∀ st, .restart st ∈ ops → D.Good st → D'.Good st) → (∀ o ∈ offered D s s.ctx.resource ops, ∀ l, o.Uses l → l.encode ∈ K) →
    Valid D' s ops ∧ offered D' s s.ctx.resource ops = offered D s s.ctx.resource ops ∧ ops.foldl (step D') s = ops.foldl (step D) s := by
  intro ops
  induction ops with
  | nil => intro s _ _ _; exact ⟨trivial, rfl, rfl⟩
  | cons op ops ih =>
    intro s hv hG hk
    cases op with
    | flush fl =>
      obtain ⟨h1, h2, h3⟩ := hv
      simp only [offered] at hk
      have hs := h.save _ s fl fun o ho => hk o (List.mem_append_left _ ho)
      have hr := save_resource s fl h2
      rw [← hr] at hk
      obtain ⟨a, b, d⟩ := ih _ h3 (fun st hm => hG st (List.mem_cons_of_mem _ hm)) fun o ho => hk o (List.mem_append_right _ ho)
      refine ⟨⟨h1, by rw [hs]; exact h2, by rw [hs]; exact a⟩, ?_, ?_⟩
      · simp only [offered, hs, ← hr, b]
      · simp only [List.foldl_cons, step, hs]; exact d
    | restart st =>
      obtain ⟨h1, h2, h3⟩ := hv
      simp only [offered] at hk
      obtain ⟨a, b, d⟩ := ih (step D s (.restart st)) h3 (fun st hm => hG st (List.mem_cons_of_mem _ hm)) hk
      refine ⟨⟨hG st List.mem_cons_self h1, by rw [h.look]; exact h2, a⟩, b, d⟩

theorem Agree.scan (h : Agree D D' K) (s : Store σ) (E : Env) (sc : Scan) : scan D' s E sc = scan D s E sc := by
  have hf : ∀ l, find D' s.ctx.st E l = find D s.ctx.st E l := by intro l; unfold find; rw [h.look]
  have hl : ∀ fs r, filterLoop D' s.ctx.st E sc.scope fs r = filterLoop D s.ctx.st E sc.scope fs r := by
    intro fs
    induction fs with
    | nil => intro r; rfl
    | cons f fs ih => intro r; simp only [filterLoop, hf, ih]
  have hc : compileFilters D' s.ctx.st E sc = compileFilters D s.ctx.st E sc := by unfold compileFilters; rw [hl, hf]
  unfold St.scan
  rw [hc]

theorem Agree.labels (h : Agree D D' K) (s : Store σ) (v : Bytes) (n : Nat) (order : List Nat) : labels D' s v n order = labels D s v n order := by
  have : ∀ ids, bulk D' s.ctx.st ids = bulk D s.ctx.st ids := by
    intro ids
    induction ids with
    | nil => rfl
    | cons i ids ih => simp only [bulk, h.keyOf, ih]
  unfold St.labels
  rw [this]

end Verif.St
