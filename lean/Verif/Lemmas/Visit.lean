import Verif.Spec.Visit
import Verif.Lemmas.Bitmap
import Mathlib.Data.List.Perm.Subperm
import Mathlib.Tactic.SplitIfs
import Mathlib.Tactic.Tauto
/-!
# Lemmas about trimming payloads
-/
namespace Verif.Vs
open St (Filter)
variable (P : Hashes)

/-! ## Compiled filters -/

/-- One field of a compiled visitor. -/
theorem fold_field (proj : All → Bm) (e : Filter → Option Nat)
    (hstep : ∀ o f, proj (step P o f) = match e f with | none => proj o | some h => (proj o).add h) (fs : List Filter) (o : All) :
    (∀ h, h ∈ proj (compile P fs o) ↔ h ∈ proj o ∨ ∃ f ∈ fs, e f = some h) ∧ ((proj o).Ok → (proj (compile P fs o)).Ok) := by
  induction fs generalizing o with
  | nil => simp [compile]
  | cons f fs ih =>
    obtain ⟨h1, h2⟩ := ih (step P o f)
    refine ⟨fun h => ?_, fun ho => h2 ?_⟩
    · have : compile P (f :: fs) o = compile P fs (step P o f) := rfl
      rw [this, h1, hstep]
      cases he : e f with
      | none => simp [he]
      | some x =>
        simp only [Bm.mem_add, List.mem_cons, exists_eq_or_imp, he, Option.some.injEq]
        constructor
        · rintro ((h | h) | h)
          · exact .inr (.inl h.symm)
          · exact .inl h
          · exact .inr (.inr h)
        · rintro (h | h | h)
          · exact .inl (.inr h)
          · exact .inl (.inl h.symm)
          · exact .inr h
    · rw [hstep]
      cases e f with
      | none => exact ho
      | some x => exact Bm.add_ok ho x

/-- The hash a filter on property `q` adds. -/
def eBase (q : Int) : Filter → Option Nat
  | .base p v => if p = q then some (P.H v) else none
  | _ => none

/-- The hash a filter on the id `q` adds. -/
def eId (q : Int) : Filter → Option Nat
  | .base p v => if p = q then (hexDecode v).map P.H else none
  | _ => none

/-- The hash an attribute filter adds. -/
def eAttr (q : Int → Bool) : Filter → Option Nat
  | .attr p k v => if q p then some (P.H0 (pair k v)) else none
  | _ => none

theorem mem_eBase (fs : List Filter) (q : Int) (h : Nat) : (∃ f ∈ fs, eBase P q f = some h) ↔ ∃ v ∈ askedBase fs q, h = P.H v := by
  constructor
  · rintro ⟨f, hf, he⟩
    cases f with
    | base p v =>
      simp only [eBase] at he
      split at he
      · rename_i hp
        cases he
        exact ⟨v, List.mem_filterMap.2 ⟨_, hf, by simp [hp]⟩, rfl⟩
      · cases he
    | attr => cases he
    | unset => cases he
  · rintro ⟨v, hv, rfl⟩
    obtain ⟨f, hf, he⟩ := List.mem_filterMap.1 hv
    cases f with
    | base p w =>
      simp only at he
      split at he
      · rename_i hp
        cases he
        exact ⟨_, hf, by simp [eBase, hp]⟩
      · cases he
    | attr => cases he
    | unset => cases he

theorem mem_eId (fs : List Filter) (q : Int) (h : Nat) :
    (∃ f ∈ fs, eId P q f = some h) ↔ ∃ v ∈ (askedBase fs q).filterMap hexDecode, h = P.H v := by
  constructor
  · rintro ⟨f, hf, he⟩
    cases f with
    | base p v =>
      simp only [eId] at he
      split at he
      · rename_i hp
        obtain ⟨b, hb, rfl⟩ := Option.map_eq_some_iff.1 he
        exact ⟨b, List.mem_filterMap.2 ⟨v, List.mem_filterMap.2 ⟨_, hf, by simp [hp]⟩, hb⟩, rfl⟩
      · cases he
    | attr => cases he
    | unset => cases he
  · rintro ⟨b, hb, rfl⟩
    obtain ⟨v, hv, hd⟩ := List.mem_filterMap.1 hb
    obtain ⟨f, hf, he⟩ := List.mem_filterMap.1 hv
    cases f with
    | base p w =>
      simp only at he
      split at he
      · rename_i hp
        cases he
        exact ⟨_, hf, by simp [eId, hp, hd]⟩
      · cases he
    | attr => cases he
    | unset => cases he

theorem mem_eAttr (fs : List Filter) (q : Int → Bool) (h : Nat) :
    (∃ f ∈ fs, eAttr P q f = some h) ↔ ∃ a : Bytes × Bytes, (∃ p, q p = true ∧ .attr p a.1 a.2 ∈ fs) ∧ h = P.H0 (pair a.1 a.2) := by
  constructor
  · rintro ⟨f, hf, he⟩
    cases f with
    | attr p k v =>
      simp only [eAttr] at he
      split at he
      · rename_i hp
        cases he
        exact ⟨(k, v), ⟨p, hp, hf⟩, rfl⟩
      · cases he
    | base => cases he
    | unset => cases he
  · rintro ⟨a, ⟨p, hp, hf⟩, rfl⟩
    exact ⟨_, hf, by simp [eAttr, hp]⟩

theorem mem_askedBase {fs : List Filter} {q : Int} {v : Bytes} : v ∈ askedBase fs q ↔ .base q v ∈ fs := by
  unfold askedBase
  rw [List.mem_filterMap]
  constructor
  · rintro ⟨f, hf, he⟩
    cases f with
    | base p w =>
      simp only at he
      split at he
      · rename_i hp; subst hp; cases he; exact hf
      · cases he
    | attr => cases he
    | unset => cases he
  · intro h; exact ⟨_, h, by simp⟩

theorem mem_askedAttrs {fs : List Filter} {q : Int} {a : Bytes × Bytes} : a ∈ askedAttrs fs q ↔ .attr q a.1 a.2 ∈ fs := by
  unfold askedAttrs
  rw [List.mem_filterMap]
  constructor
  · rintro ⟨f, hf, he⟩
    cases f with
    | attr p k v =>
      simp only at he
      split at he
      · rename_i hp; subst hp; cases he; exact hf
      · cases he
    | base => cases he
    | unset => cases he
  · intro h; exact ⟨_, h, by simp⟩

theorem mem_actual_scopeAttrs {fs : List Filter} {a : Bytes × Bytes} :
    a ∈ (actual fs).scopeAttrs ↔ ∃ p, (p = Pfx.scopeAttributes ∨ p = Pfx.attributes) ∧ .attr p a.1 a.2 ∈ fs := by
  show a ∈ List.filterMap _ fs ↔ _
  rw [List.mem_filterMap]
  constructor
  · rintro ⟨f, hf, he⟩
    cases f with
    | attr p k v =>
      simp only at he
      split at he
      · rename_i hp; cases he; exact ⟨p, hp, hf⟩
      · cases he
    | base => cases he
    | unset => cases he
  · rintro ⟨p, hp, h⟩; exact ⟨_, h, by simp [hp]⟩

/-- What the fields of a compiled visitor contain. -/
structure Compiled (fs : List Filter) (A : All) : Prop where
  resourceSchema : ∀ h, h ∈ A.resourceSchema ↔ ∃ v ∈ askedBase fs Pfx.resourceSchema, h = P.H v
  scopeSchema : ∀ h, h ∈ A.scopeSchema ↔ ∃ v ∈ askedBase fs Pfx.scopeSchema, h = P.H v
  scopeName : ∀ h, h ∈ A.scopeName ↔ ∃ v ∈ askedBase fs Pfx.scopeName, h = P.H v
  scopeVersion : ∀ h, h ∈ A.scopeVersion ↔ ∃ v ∈ askedBase fs Pfx.scopeVersion, h = P.H v
  name : ∀ h, h ∈ A.name ↔ ∃ v ∈ askedBase fs Pfx.name, h = P.H v
  logLevel : ∀ h, h ∈ A.logLevel ↔ ∃ v ∈ askedBase fs Pfx.logsLevel, h = P.H v
  traceId : ∀ h, h ∈ A.traceId ↔ ∃ v ∈ (askedBase fs Pfx.traceId).filterMap hexDecode, h = P.H v
  parentSpanId : ∀ h, h ∈ A.parentSpanId ↔ ∃ v ∈ (askedBase fs Pfx.parentSpanId).filterMap hexDecode, h = P.H v
  resourceAttr : ∀ h, h ∈ A.resourceAttr ↔ ∃ a ∈ askedAttrs fs Pfx.resourceAttributes, h = P.H0 (pair a.1 a.2)
  scopeAttr : ∀ h, h ∈ A.scopeAttr ↔ ∃ a ∈ (actual fs).scopeAttrs, h = P.H0 (pair a.1 a.2)
  attr : A.attr = []
  resourceAttrOk : A.resourceAttr.Ok
  scopeAttrOk : A.scopeAttr.Ok

theorem step_attr (o : All) (f : Filter) : (step P o f).attr = o.attr := by
  cases f <;> simp only [step] <;> split_ifs <;> rfl

theorem compile_attr (fs : List Filter) (o : All) : (compile P fs o).attr = o.attr := by
  induction fs generalizing o with
  | nil => rfl
  | cons f fs ih => exact (ih (step P o f)).trans (step_attr P o f)

theorem step_resourceSchema (o : All) (f : Filter) : (step P o f).resourceSchema = match eBase P Pfx.resourceSchema f with | none => o.resourceSchema | some h => o.resourceSchema.add h := by
  cases f with
  | base p v =>
    by_cases h : p = Pfx.resourceSchema
    · subst h; simp only [eBase, if_true]; rfl
    · simp only [eBase, h, if_false, step]; split_ifs <;> rfl
  | attr p k v => simp only [eBase, step]; split_ifs <;> rfl
  | unset => rfl

theorem step_scopeSchema (o : All) (f : Filter) : (step P o f).scopeSchema = match eBase P Pfx.scopeSchema f with | none => o.scopeSchema | some h => o.scopeSchema.add h := by
  cases f with
  | base p v =>
    by_cases h : p = Pfx.scopeSchema
    · subst h; simp only [eBase, if_true]; rfl
    · simp only [eBase, h, if_false, step]; split_ifs <;> rfl
  | attr p k v => simp only [eBase, step]; split_ifs <;> rfl
  | unset => rfl

theorem step_scopeName (o : All) (f : Filter) : (step P o f).scopeName = match eBase P Pfx.scopeName f with | none => o.scopeName | some h => o.scopeName.add h := by
  cases f with
  | base p v =>
    by_cases h : p = Pfx.scopeName
    · subst h; simp only [eBase, if_true]; rfl
    · simp only [eBase, h, if_false, step]; split_ifs <;> rfl
  | attr p k v => simp only [eBase, step]; split_ifs <;> rfl
  | unset => rfl

theorem step_scopeVersion (o : All) (f : Filter) : (step P o f).scopeVersion = match eBase P Pfx.scopeVersion f with | none => o.scopeVersion | some h => o.scopeVersion.add h := by
  cases f with
  | base p v =>
    by_cases h : p = Pfx.scopeVersion
    · subst h; simp only [eBase, if_true]; rfl
    · simp only [eBase, h, if_false, step]; split_ifs <;> rfl
  | attr p k v => simp only [eBase, step]; split_ifs <;> rfl
  | unset => rfl

theorem step_name (o : All) (f : Filter) : (step P o f).name = match eBase P Pfx.name f with | none => o.name | some h => o.name.add h := by
  cases f with
  | base p v =>
    by_cases h : p = Pfx.name
    · subst h; simp only [eBase, if_true]; rfl
    · simp only [eBase, h, if_false, step]; split_ifs <;> rfl
  | attr p k v => simp only [eBase, step]; split_ifs <;> rfl
  | unset => rfl

theorem step_logLevel (o : All) (f : Filter) : (step P o f).logLevel = match eBase P Pfx.logsLevel f with | none => o.logLevel | some h => o.logLevel.add h := by
  cases f with
  | base p v =>
    by_cases h : p = Pfx.logsLevel
    · subst h; simp only [eBase, if_true]; rfl
    · simp only [eBase, h, if_false, step]; split_ifs <;> rfl
  | attr p k v => simp only [eBase, step]; split_ifs <;> rfl
  | unset => rfl

theorem step_traceId (o : All) (f : Filter) : (step P o f).traceId = match eId P Pfx.traceId f with | none => o.traceId | some h => o.traceId.add h := by
  cases f with
  | base p v =>
    by_cases h : p = Pfx.traceId
    · subst h; simp only [eId, if_true]; cases hd : hexDecode v <;> simp [step, addId, hd, Pfx.resourceSchema, Pfx.scopeSchema, Pfx.scopeName, Pfx.scopeVersion, Pfx.name, Pfx.traceId,]
    · simp only [eId, h, if_false, step]; split_ifs <;> rfl
  | attr p k v => simp only [eId, step]; split_ifs <;> rfl
  | unset => rfl

theorem step_parentSpanId (o : All) (f : Filter) : (step P o f).parentSpanId = match eId P Pfx.parentSpanId f with | none => o.parentSpanId | some h => o.parentSpanId.add h := by
  cases f with
  | base p v =>
    by_cases h : p = Pfx.parentSpanId
    · subst h; simp only [eId, if_true]; cases hd : hexDecode v <;> simp [step, addId, hd, Pfx.resourceSchema, Pfx.scopeSchema, Pfx.scopeName, Pfx.scopeVersion, Pfx.name, Pfx.traceId, Pfx.spanId, Pfx.parentSpanId]
    · simp only [eId, h, if_false, step]; split_ifs <;> rfl
  | attr p k v => simp only [eId, step]; split_ifs <;> rfl
  | unset => rfl

theorem step_resourceAttr (o : All) (f : Filter) : (step P o f).resourceAttr =
    match eAttr P (fun p => decide (p = Pfx.resourceAttributes)) f with | none => o.resourceAttr | some h => o.resourceAttr.add h := by
  cases f with
  | attr p k v =>
    by_cases h : p = Pfx.resourceAttributes
    · subst h; rfl
    · simp only [eAttr, h, decide_false, step, if_false]; split_ifs <;> first | rfl | contradiction
  | base p v => simp only [eAttr, step]; split_ifs <;> rfl
  | unset => rfl

theorem step_scopeAttr (o : All) (f : Filter) : (step P o f).scopeAttr =
    match eAttr P (fun p => decide (p = Pfx.scopeAttributes ∨ p = Pfx.attributes)) f with | none => o.scopeAttr | some h => o.scopeAttr.add h := by
  cases f with
  | attr p k v =>
    by_cases h : p = Pfx.scopeAttributes
    · subst h; rfl
    · by_cases h' : p = Pfx.attributes
      · subst h'; rfl
      · simp only [eAttr, h, h', or_self, decide_false, step, if_false]; split_ifs <;> first | rfl | contradiction
  | base p v => simp only [eAttr, step]; split_ifs <;> rfl
  | unset => rfl

theorem compiled (fs : List Filter) (start stop : Nat) : Compiled P fs (setTimeRange (compile P fs {}) start stop) := by
  have hB : ∀ (proj : All → Bm) (q : Int), proj {} = [] →
      (∀ o f, proj (step P o f) = match eBase P q f with | none => proj o | some h => (proj o).add h) →
      ∀ h, h ∈ proj (compile P fs {}) ↔ ∃ v ∈ askedBase fs q, h = P.H v := by
    intro proj q h0 hs h
    rw [(fold_field P proj _ hs fs {}).1, h0, mem_eBase]; simp
  have hI : ∀ (proj : All → Bm) (q : Int), proj {} = [] →
      (∀ o f, proj (step P o f) = match eId P q f with | none => proj o | some h => (proj o).add h) →
      ∀ h, h ∈ proj (compile P fs {}) ↔ ∃ v ∈ (askedBase fs q).filterMap hexDecode, h = P.H v := by
    intro proj q h0 hs h
    rw [(fold_field P proj _ hs fs {}).1, h0, mem_eId]; simp
  have nil_ok : Bm.Ok [] := List.Pairwise.nil
  constructor
  · exact hB (·.resourceSchema) Pfx.resourceSchema rfl (step_resourceSchema P)
  · exact hB (·.scopeSchema) Pfx.scopeSchema rfl (step_scopeSchema P)
  · exact hB (·.scopeName) Pfx.scopeName rfl (step_scopeName P)
  · exact hB (·.scopeVersion) Pfx.scopeVersion rfl (step_scopeVersion P)
  · exact hB (·.name) Pfx.name rfl (step_name P)
  · exact hB (·.logLevel) Pfx.logsLevel rfl (step_logLevel P)
  · exact hI (·.traceId) Pfx.traceId rfl (step_traceId P)
  · exact hI (·.parentSpanId) Pfx.parentSpanId rfl (step_parentSpanId P)
  · intro h
    show h ∈ (compile P fs {}).resourceAttr ↔ _
    rw [(fold_field P (·.resourceAttr) _ (step_resourceAttr P) fs {}).1, mem_eAttr]
    simp [mem_askedAttrs]
  · intro h
    show h ∈ (compile P fs {}).scopeAttr ↔ _
    rw [(fold_field P (·.scopeAttr) _ (step_scopeAttr P) fs {}).1, mem_eAttr]
    simp only [mem_actual_scopeAttrs]; simp
  · exact compile_attr P fs {}
  · exact (fold_field P (·.resourceAttr) _ (step_resourceAttr P) fs {}).2 nil_ok
  · exact (fold_field P (·.scopeAttr) _ (step_scopeAttr P) fs {}).2 nil_ok

end Verif.Vs
