import Verif.Lemmas.PoolScan
import Verif.Model.PoolTrim
/-! # Trimming uses its objects properly, and what it returns -/
namespace Verif.Pl
open St (Filter Scan Env Result)
open Vs (Hashes All)

/-- With the visitor `A` in object `v`, the program changes nothing that is there and returns `x`. -/
def Gives {β : Type} (v : Nat) (A : All) (p : P β) (x : β) : Prop :=
  ∀ (τ : Type) (R : τ → Ask → Ans → τ → Prop) (s : τ) (l : Own), v < l.n → l.at_ v = some (.visitor A) → p.Ends R s l fun r s' l' => s' = s ∧ Keep [] l l' ∧ r = x

section
variable {β γ : Type} {v : Nat} {A : All}

theorem Gives.pure (x : β) : Gives v A (Pure.pure x : P β) x := fun _ _ _ _ _ _ => ends_pure ⟨rfl, Keep.refl _ _, rfl⟩

theorem Gives.bind {p : P β} {g : β → P γ} {x : β} {y : γ} (h : Gives v A p x) (hg : Gives v A (g x) y) : Gives v A (p >>= g) y := by
  intro τ R s l hlt hv
  refine ends_seq (h τ R s l hlt hv) ?_
  rintro _ _ l1 ⟨rfl, h1, rfl⟩
  refine Prog.ends_mono ?_ _ _ _ (hg τ R _ l1 (Nat.lt_of_lt_of_le hlt h1.1) (by rw [h1.2 v hlt (by simp)]; exact hv))
  rintro r s' l' ⟨h2, h3, h4⟩
  exact ⟨h2, h1.trans h3, h4⟩

theorem Gives.look {g : Obj → P γ} {y : γ} (hg : Gives v A (g (.visitor A)) y) : Gives v A (look v >>= g) y :=
  fun τ R s l hlt hv => ends_look hv (hg τ R s l hlt hv)
end

variable (H : Hashes) {v : Nat} {A : All} {α : Type}

theorem attrLoop_ends {τ : Type} (R : τ → Ask → Ans → τ → Prop) (s : τ) (b : Nat) (ls : List KeyValue) (x : Bm) (l : Own) (hb : l.at_ b = some (.bitmap [] x)) :
    (attrLoop H b ls).Ends R s l fun ok s' l' => s' = s ∧ Keep [b] l l' ∧ ∃ y, l'.at_ b = some (.bitmap [] y) ∧ Vs.attrHashes H ls x = if ok then some y else none := by
  induction ls generalizing x l with
  | nil => exact ends_pure ⟨rfl, Keep.refl _ _, x, hb, rfl⟩
  | cons kv r ih =>
    rw [attrLoop, Vs.attrHashes]
    cases kv.value with
    | none => exact ends_pure ⟨rfl, Keep.refl _ _, x, hb, rfl⟩
    | some a =>
      cases a with
      | str t =>
        refine ends_use hb ?_
        refine Prog.ends_mono ?_ _ _ _ (ih (x.add (H.H (Vs.pair kv.key t))) _ (Own.set_self ..))
        rintro ok s' l' ⟨h1, h2, h3⟩
        exact ⟨h1, (Keep.set _ (.inl (by simp))).trans h2, h3⟩
      | other t => exact ih x l hb

theorem gives_matchAttr (a : Bm) (ls : List KeyValue) : Gives v A (matchAttr H a ls) (Vs.matchAttr H a ls) := by
  rw [matchAttr, Vs.matchAttr]
  by_cases h : a.isEmpty = true
  · rw [if_pos h, if_pos h]; exact Gives.pure _
  rw [if_neg h, if_neg h]
  intro τ R s l hlt hv
  refine ends_take (ends_seq (attrLoop_ends H R s l.n ls [] _ (Own.add_self ..)) ?_)
  rintro ok _ l1 ⟨rfl, h1, y, h2, h3⟩
  have k1 : Keep [l.n] l l1 := (Keep.refl _ _).add'.trans h1
  cases ok with
  | true =>
    refine ends_use h2 (ends_give (Own.set_self ..) (release_fresh _ (by simp [Obj.kind, Obj.onBits])) (ends_pure ⟨rfl, ?_, ?_⟩))
    · exact ((k1.set' (.inl (by simp))).set' (.inl (by simp))).weak (by simp)
    · rw [h3]; rfl
  | false =>
    refine ends_give h2 (release_fresh _ (by simp [Obj.kind])) (ends_pure ⟨rfl, ?_, ?_⟩)
    · exact (k1.set' (.inl (by simp))).weak (by simp)
    · rw [h3]; rfl

theorem gives_andThen (x : Bool) {p : P (Option Bool)} {y : Option Bool} (h : Gives v A p y) : Gives v A (andThen x p) (Vs.andThen x y) := by
  cases x with
  | true => exact h
  | false => exact Gives.pure _

theorem gives_acceptResource (rm : ResourceG α) : Gives v A (acceptResource H v rm) (Vs.acceptResource H A rm) := Gives.look (gives_andThen _ (gives_matchAttr H _ _))
theorem gives_acceptScope (sm : ScopeG α) : Gives v A (acceptScope H v sm) (Vs.acceptScope H A sm) := Gives.look (gives_andThen _ (gives_matchAttr H _ _))
theorem gives_acceptPoint (p : DataPoint) : Gives v A (acceptPoint H v p) (Vs.acceptPoint H A p) := Gives.look (gives_andThen _ (gives_matchAttr H _ _))
theorem gives_acceptLog (p : LogRecord) : Gives v A (acceptLog H v p) (Vs.acceptLog H A p) := Gives.look (gives_andThen _ (gives_matchAttr H _ _))
theorem gives_acceptSpan (p : Span) : Gives v A (acceptSpan H v p) (Vs.acceptSpan H A p) := Gives.look (gives_andThen _ (gives_matchAttr H _ _))

theorem gives_select {β : Type} {f : β → P (Option Bool)} {g : β → Option Bool} (h : ∀ x, Gives v A (f x) (g x)) (xs : List β) : Gives v A (select f xs) (Vs.select g xs) := by
  induction xs with
  | nil => exact Gives.pure _
  | cons x xs ih =>
    refine (h x).bind ?_
    rw [Vs.select]
    cases g x with
    | none => exact Gives.pure _
    | some b =>
      refine ih.bind ?_
      cases Vs.select g xs with
      | none => exact Gives.pure _
      | some ys => exact Gives.pure _

theorem gives_selectMetrics (ms : List Metric) : Gives v A (selectMetrics H v ms) (Vs.selectMetrics H A ms) := by
  induction ms with
  | nil => exact Gives.pure _
  | cons m ms ih =>
    refine Gives.look ?_
    rw [Vs.selectMetrics]
    by_cases ha : Vs.accept H A.name m.name = true
    · rw [if_pos (show Vs.accept H (Obj.visitor A).all.name m.name = true from ha), if_pos ha]
      cases m.data with
      | none => exact ih
      | some d =>
        refine (gives_select (gives_acceptPoint H) d.points).bind ?_
        simp only
        cases Vs.select (Vs.acceptPoint H A) d.points with
        | none => exact Gives.pure _
        | some points =>
          refine ih.bind ?_
          simp only
          cases Vs.selectMetrics H A ms with
          | none => exact Gives.pure _
          | some out =>
            simp only
            by_cases hp : points.isEmpty = true
            · rw [if_pos hp, if_pos hp]; exact Gives.pure _
            · rw [if_neg hp, if_neg hp]; exact Gives.pure _
    · rw [if_neg (show ¬ Vs.accept H (Obj.visitor A).all.name m.name = true from ha), if_neg ha]; exact ih

theorem gives_visitScopes {sel : List α → P (Option (List α))} {sel' : List α → Option (List α)} (h : ∀ x, Gives v A (sel x) (sel' x)) (ss : List (ScopeG α)) :
    Gives v A (visitScopes H v sel ss) (Vs.visitScopes H A sel' ss) := by
  induction ss with
  | nil => exact Gives.pure _
  | cons sm ss ih =>
    refine (gives_acceptScope H sm).bind ?_
    rw [Vs.visitScopes]
    cases Vs.acceptScope H A sm with
    | none => exact Gives.pure _
    | some b =>
      cases b with
      | false => exact ih
      | true =>
        refine (h sm.items).bind ?_
        simp only
        cases sel' sm.items with
        | none => exact Gives.pure _
        | some items =>
          refine ih.bind ?_
          simp only
          cases Vs.visitScopes H A sel' ss with
          | none => exact Gives.pure _
          | some out => exact Gives.pure _

theorem gives_visitResources {sel : List α → P (Option (List α))} {sel' : List α → Option (List α)} (h : ∀ x, Gives v A (sel x) (sel' x)) (rs : List (ResourceG α)) :
    Gives v A (visitResources H v sel rs) (Vs.visitResources H A sel' rs) := by
  induction rs with
  | nil => exact Gives.pure _
  | cons rm rs ih =>
    refine (gives_acceptResource H rm).bind ?_
    rw [Vs.visitResources]
    cases Vs.acceptResource H A rm with
    | none => exact Gives.pure _
    | some b =>
      cases b with
      | false => exact ih
      | true =>
        refine (gives_visitScopes H h rm.scopes).bind ?_
        simp only
        cases Vs.visitScopes H A sel' rm.scopes with
        | none => exact Gives.pure _
        | some scopes =>
          refine ih.bind ?_
          simp only
          cases Vs.visitResources H A sel' rs with
          | none => exact Gives.pure _
          | some out => exact Gives.pure _

theorem gives_visit (d : Data) : Gives v A (visit H v d) (Vs.visit H A d) := by
  cases d with
  | metrics rs =>
    refine (gives_visitResources H (gives_selectMetrics H) rs).bind ?_
    show Gives v A _ (match Vs.visitMetrics H A rs with | none => none | some out => some (Data.metrics out))
    rw [Vs.visitMetrics]
    cases Vs.visitResources H A (Vs.selectMetrics H A) rs <;> exact Gives.pure _
  | logs rs =>
    refine (gives_visitResources H (gives_select (gives_acceptLog H)) rs).bind ?_
    show Gives v A _ (match Vs.visitLogs H A rs with | none => none | some out => some (Data.logs out))
    rw [Vs.visitLogs]
    cases Vs.visitResources H A (Vs.select (Vs.acceptLog H A)) rs <;> exact Gives.pure _
  | traces rs =>
    refine (gives_visitResources H (gives_select (gives_acceptSpan H)) rs).bind ?_
    show Gives v A _ (match Vs.visitTraces H A rs with | none => none | some out => some (Data.traces out))
    rw [Vs.visitTraces]
    cases Vs.visitResources H A (Vs.select (Vs.acceptSpan H A)) rs <;> exact Gives.pure _
  | none => exact Gives.pure _

theorem trim_ends {τ : Type} (R : τ → Ask → Ans → τ → Prop) (s : τ) (filters : List Filter) (b : Int × Int) (d : Data) (l : Own) :
    (trim H filters b d).Ends R s l fun r s' _ => s' = s ∧ r = Vs.visit H (Vs.compile H filters (Vs.setTimeRange {} (Js.toUint64 b.1) (Js.toUint64 b.2))) d := by
  refine ends_take (ends_use (Own.add_self ..) (ends_use (Own.set_self ..) ?_))
  refine ends_seq (gives_visit H d τ R s _ (by simp) (Own.set_self ..)) ?_
  rintro r _ l' ⟨rfl, h1, rfl⟩
  exact ends_give (by rw [h1.2 l.n (by simp) (by simp)]; exact Own.set_self ..) (release_fresh _ (by simp [Obj.kind, Obj.onAll, fresh])) (ends_pure ⟨rfl, rfl⟩)

theorem jsScan_ends {τ : Type} (R : τ → Ask → Ans → τ → Prop) (s : τ) (clock : Int) (a : Scan) (r : Result) (l : Own) :
    (jsScan H clock a r).Ends R s l fun x s' _ => s' = s ∧ x = Js.jsScan H (some fun _ => r) clock a := by
  unfold jsScan Js.jsScan
  cases r with
  | data d =>
    simp only
    by_cases h : a.time.range = none ∧ a.filters = []
    · rw [if_pos h, if_pos h]; exact ends_pure ⟨rfl, rfl⟩
    · rw [if_neg h, if_neg h]
      cases d with
      | none =>
        exact ends_take (ends_use (Own.add_self ..) (ends_use (Own.set_self ..) (ends_give (Own.set_self ..) (release_fresh _ (by simp [Obj.kind, Obj.onAll, fresh])) (ends_pure ⟨rfl, rfl⟩))))
      | some d =>
        refine ends_seq (trim_ends H R s a.filters (Tm.timeBounds clock a.time) d l) ?_
        rintro out _ l1 ⟨rfl, rfl⟩
        simp only
        cases Vs.visit H (Vs.compile H a.filters (Vs.setTimeRange {} (Js.toUint64 (Tm.timeBounds clock a.time).1) (Js.toUint64 (Tm.timeBounds clock a.time).2))) d <;>
          exact ends_pure ⟨rfl, rfl⟩
  | err => exact ends_pure ⟨rfl, rfl⟩
  | panic => exact ends_pure ⟨rfl, rfl⟩
  | undefined => exact ends_pure ⟨rfl, rfl⟩

end Verif.Pl
