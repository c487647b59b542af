import Verif.Lemmas.Pool
import Verif.Lemmas.Bitmap
import Verif.Lemmas.Shards
import Verif.Spec.PoolScan
/-! # A scan uses its objects properly, and what it returns -/
namespace Verif.Pl
open St (Filter Scan Env Result)

section own
variable (l : Own) (o : Obj)
@[simp] theorem Own.add_n : (l.add o).n = l.n + 1 := rfl
@[simp] theorem Own.set_n (r : Nat) (x : Option Obj) : (l.set r x).n = l.n := rfl
@[simp] theorem Own.add_self : (l.add o).at_ l.n = some o := by simp [Own.add]
theorem Own.add_ne {i : Nat} (h : i ≠ l.n) : (l.add o).at_ i = l.at_ i := by simp [Own.add, h]
@[simp] theorem Own.set_self (r : Nat) (x : Option Obj) : (l.set r x).at_ r = x := by simp [Own.set]
theorem Own.set_ne {r i : Nat} (x : Option Obj) (h : i ≠ r) : (l.set r x).at_ i = l.at_ i := by simp [Own.set, h]
end own

theorem release_fresh (o : Obj) (h : o.kind ≠ .schema) : o.release = fresh o.kind := by
  cases o with
  | schema r => exact absurd rfl h
  | _ => simp [Obj.release, Obj.kind, fresh]

section ends
variable {Q A α β σ : Type} {R : σ → Q → A → σ → Prop} {s : σ} {l : Own} {Φ : β → σ → Own → Prop}

theorem ends_take {κ : Kind} {g : Nat → Prog Q A β} (h : (g l.n).Ends R s (l.add (fresh κ)) Φ) : (take κ >>= g).Ends R s l Φ := h
theorem ends_use {r : Nat} {f : Obj → Obj} {g : Obj → Prog Q A β} {o : Obj} (ho : l.at_ r = some o) (h : (g (f o)).Ends R s (l.set r (some (f o))) Φ) :
    (use r f >>= g).Ends R s l Φ := ⟨o, ho, h⟩
theorem Own.set_same {l : Own} {r : Nat} {o : Obj} (ho : l.at_ r = some o) : l.set r (some o) = l := by
  cases l with | mk n at_ =>
  simp only [Own.set, Own.mk.injEq, true_and]
  funext i
  split
  · rename_i h; subst h; exact ho.symm
  · rfl
theorem ends_look {r : Nat} {g : Obj → Prog Q A β} {o : Obj} (ho : l.at_ r = some o) (h : (g o).Ends R s l Φ) : (look r >>= g).Ends R s l Φ :=
  ⟨o, ho, by rw [id, Own.set_same ho]; exact h⟩
theorem ends_give {r : Nat} {g : Unit → Prog Q A β} {o : Obj} (ho : l.at_ r = some o) (hk : o.release = fresh o.kind) (h : (g ()).Ends R s (l.set r none) Φ) :
    (give r >>= g).Ends R s l Φ := ⟨o, ho, hk, h⟩
theorem ends_ask {q : Q} {g : A → Prog Q A β} (h : ∀ a s', R s q a s' → (g a).Ends R s' l Φ) : (ask q >>= g).Ends R s l Φ := h
theorem ends_pure {a : β} (h : Φ a s l) : (pure a : Prog Q A β).Ends R s l Φ := h
theorem ends_seq {p : Prog Q A α} {g : α → Prog Q A β} {Ψ : α → σ → Own → Prop} (h : p.Ends R s l Ψ) (hg : ∀ a s l, Ψ a s l → (g a).Ends R s l Φ) :
    (p >>= g).Ends R s l Φ := (Prog.ends_bind ..).2 (Prog.ends_mono hg _ _ _ h)
end ends

/-- Objects numbered below those of `l`, other than the ones in `S`, are as before. -/
def Keep (S : List Nat) (l l' : Own) : Prop := l.n ≤ l'.n ∧ ∀ i < l.n, i ∉ S → l'.at_ i = l.at_ i

theorem Keep.refl (S : List Nat) (l : Own) : Keep S l l := ⟨Nat.le_refl _, fun _ _ _ => rfl⟩
theorem Keep.trans {S : List Nat} {a b c : Own} (h : Keep S a b) (h' : Keep S b c) : Keep S a c :=
  ⟨Nat.le_trans h.1 h'.1, fun i hi hS => by rw [h'.2 i (Nat.lt_of_lt_of_le hi h.1) hS, h.2 i hi hS]⟩
theorem Keep.weaken {S T : List Nat} {a b : Own} (h : Keep S a b) (hT : ∀ i ∈ S, i < a.n → i ∈ T) : Keep T a b :=
  ⟨h.1, fun i hi hn => h.2 i hi fun hs => hn (hT i hs hi)⟩
theorem Keep.set {S : List Nat} {l : Own} {r : Nat} (x : Option Obj) (h : r ∈ S ∨ l.n ≤ r) : Keep S l (l.set r x) :=
  ⟨Nat.le_refl _, fun i hi hS => Own.set_ne _ _ (by rintro rfl; rcases h with h | h <;> [exact hS h; omega])⟩
theorem Keep.add (S : List Nat) (l : Own) (o : Obj) : Keep S l (l.add o) := ⟨by simp, fun i hi _ => Own.add_ne _ _ (by omega)⟩

variable {σ : Type} (D : Dict σ) (st : St.Store σ) (E : Env)

/-- The answers are those of the store. -/
abbrev Right (R : Unit → Ask → Ans → Unit → Prop) : Prop := ∀ q a, R () q a () → a = dbAnswer D st E q

theorem fields_label (scope : Int) (f : Filter) : (fields scope f).map (fun g => g {}) = f.label scope := by
  cases f <;> rfl

theorem filterLoop_ends (R : Unit → Ask → Ans → Unit → Prop) (scope : Int) (lbl r : Nat) : ∀ (fs : List Filter) (b : Bm) (l : Own),
    lbl < l.n → lbl ≠ r → r < l.n → l.at_ r = some (.bitmap [] b) → (∃ x y, l.at_ lbl = some (.label x y)) →
    (filterLoop scope lbl r fs).Ends R () l fun ok _ l' => Keep [lbl, r] l l' ∧ (∃ x y, l'.at_ lbl = some (.label x y)) ∧
      ∃ b', l'.at_ r = some (.bitmap [] b') ∧ (Right D st E R → St.filterLoop D st.ctx.st E scope fs b = if ok then some b' else none) := by
  intro fs
  induction fs with
  | nil =>
    intro b l _ _ _ hr hl
    exact ends_pure ⟨Keep.refl _ _, hl, b, hr, fun _ => rfl⟩
  | cons f fs ih =>
    intro b l hlt hne hrt hr hl
    obtain ⟨x, y, hl⟩ := hl
    have hfl := fields_label scope f
    cases hf : fields scope f with
    | none =>
      simp only [filterLoop, hf]
      refine Prog.ends_mono ?_ _ _ _ (ih b l hlt hne hrt hr ⟨x, y, hl⟩)
      rintro ok _ l' ⟨h1, h2, b', h3, h4⟩
      refine ⟨h1, h2, b', h3, fun h => ?_⟩
      rw [hf] at hfl
      simp only [St.filterLoop, ← hfl, Option.map_none]
      exact h4 h
    | some g =>
      rw [hf] at hfl
      simp only [filterLoop, hf]
      refine ends_use hl (ends_ask fun a _ hR => ?_)
      have hk1 : Keep [lbl, r] l (l.set lbl (some (Obj.encode g (.label x y)))) := Keep.set _ (.inl (by simp))
      have hfind : Right D st E R → a = dbAnswer D st E (.find (g {}).encode) := fun h => h _ _ hR
      have hloop : ∀ fs', St.filterLoop D st.ctx.st E scope (f :: fs') b = match St.find D st.ctx.st E (g {}) with
          | .fault => none
          | .notFound => some []
          | .col n => St.filterLoop D st.ctx.st E scope fs' (b.add n) := by
        intro fs'; simp only [St.filterLoop, ← hfl, Option.map_some]; cases St.find D st.ctx.st E (g {}) <;> rfl
      have hr1 : (l.set lbl (some (Obj.encode g (.label x y)))).at_ r = some (.bitmap [] b) := by rw [Own.set_ne _ _ (Ne.symm hne)]; exact hr
      have hbad : (∀ n, a ≠ .id n) → a ≠ .missing → Right D st E R → St.filterLoop D st.ctx.st E scope (f :: fs) b = none := by
        intro h1 h2 h
        have := hfind h
        rw [hloop]
        simp only [dbAnswer] at this
        simp only [St.find]
        split at this
        · rename_i hft; rw [if_pos hft]
        · split at this
          · exact absurd this h2
          · exact absurd this (h1 _)
      cases a with
      | id n =>
        refine ends_use hr1 ?_
        refine Prog.ends_mono ?_ _ _ _ (ih (b.add n) _ hlt hne hrt (Own.set_self ..) ⟨_, _, by rw [Own.set_ne _ _ hne, Own.set_self]; rfl⟩)
        rintro ok _ l' ⟨h1, h2, b', h3, h4⟩
        refine ⟨(hk1.trans (Keep.set _ (.inl (by simp)))).trans h1, h2, b', h3, fun h => ?_⟩
        rw [hloop]
        have := hfind h
        simp only [dbAnswer] at this
        simp only [St.find]
        split at this
        · cases this
        · rename_i hft
          rw [if_neg hft]
          split at this
          · cases this
          · rename_i m hm; cases this; rw [hm]; exact h4 h
      | missing =>
        refine ends_use hr1 (ends_pure ⟨hk1.trans (Keep.set _ (.inl (by simp))), ⟨_, _, by rw [Own.set_ne _ _ hne, Own.set_self]; rfl⟩, [], Own.set_self .., fun h => ?_⟩)
        rw [hloop]
        have := hfind h
        simp only [dbAnswer] at this
        simp only [St.find]
        split at this
        · cases this
        · rename_i hft
          rw [if_neg hft]
          split at this
          · rename_i hm; rw [hm]; rfl
          · cases this
      | failed => exact ends_pure ⟨hk1, ⟨_, _, by rw [Own.set_self]; rfl⟩, b, hr1, fun h => by rw [hbad (by simp) (by simp) h]; rfl⟩
      | found => exact ends_pure ⟨hk1, ⟨_, _, by rw [Own.set_self]; rfl⟩, b, hr1, fun h => by rw [hbad (by simp) (by simp) h]; rfl⟩
      | bits _ => exact ends_pure ⟨hk1, ⟨_, _, by rw [Own.set_self]; rfl⟩, b, hr1, fun h => by rw [hbad (by simp) (by simp) h]; rfl⟩
      | table _ => exact ends_pure ⟨hk1, ⟨_, _, by rw [Own.set_self]; rfl⟩, b, hr1, fun h => by rw [hbad (by simp) (by simp) h]; rfl⟩

theorem compileFilters_ends (R : Unit → Ask → Ans → Unit → Prop) (sc : Scan) (r : Nat) (l : Own) (hrt : r < l.n) (hr : l.at_ r = some (.bitmap [] [])) :
    (compileFilters sc r).Ends R () l fun ok _ l' => Keep [r] l l' ∧
      ∃ b, l'.at_ r = some (.bitmap [] b) ∧ (Right D st E R → St.compileFilters D st.ctx.st E sc = if ok then some b else none) := by
  have hne : l.n ≠ r := by omega
  refine ends_take ?_
  have hr1 : (l.add (fresh .label)).at_ r = some (.bitmap [] []) := by rw [Own.add_ne _ _ (Ne.symm hne)]; exact hr
  refine ends_seq (Ψ := fun ok _ l' => Keep [l.n, r] (l.add (fresh .label)) l' ∧ (∃ x y, l'.at_ l.n = some (.label x y)) ∧
    ∃ b, l'.at_ r = some (.bitmap [] b) ∧ (Right D st E R → St.compileFilters D st.ctx.st E sc = if ok = true then some b else none)) ?_ ?_
  · rw [columnsOf]
    by_cases hf : sc.filters = []
    · rw [if_pos hf]
      refine ends_use (Own.add_self ..) (ends_ask fun a _ hR => ?_)
      have hfind : Right D st E R → a = dbAnswer D st E (.find (Label.encode { resource := sc.scope })) := fun h => h _ _ hR
      have hk1 : Keep [l.n, r] (l.add (fresh .label)) ((l.add (fresh .label)).set l.n (some (Obj.encode (fun l => { l with resource := sc.scope, pfx := Pfx.unknown }) (fresh .label)))) :=
        Keep.set _ (.inl (by simp))
      have hl1 : ∃ x y, ((l.add (fresh .label)).set l.n (some (Obj.encode (fun l => { l with resource := sc.scope, pfx := Pfx.unknown }) (fresh .label)))).at_ l.n =
        some (.label x y) := ⟨_, _, by rw [Own.set_self]; rfl⟩
      have hr2 : ((l.add (fresh .label)).set l.n (some (Obj.encode (fun l => { l with resource := sc.scope, pfx := Pfx.unknown }) (fresh .label)))).at_ r =
        some (.bitmap [] []) := by rw [Own.set_ne _ _ (Ne.symm hne)]; exact hr1
      have hbad : (∀ n, a ≠ .id n) → a ≠ .missing → Right D st E R → St.compileFilters D st.ctx.st E sc = none := by
        intro h1 h2 h
        have := hfind h
        simp only [dbAnswer] at this
        simp only [St.compileFilters, if_pos hf, St.find]
        split at this
        · rename_i hft; rw [if_pos hft]
        · split at this
          · exact absurd this h2
          · exact absurd this (h1 _)
      cases a with
      | id n =>
        refine ends_use hr2 (ends_pure ⟨hk1.trans (Keep.set _ (.inl (by simp))), ?_, [n], Own.set_self .., fun h => ?_⟩)
        · rw [Own.set_ne _ _ hne]; exact hl1
        · have := hfind h
          simp only [dbAnswer] at this
          simp only [St.compileFilters, if_pos hf, St.find]
          split at this
          · cases this
          · rename_i hft
            rw [if_neg hft]
            split at this
            · cases this
            · rename_i m hm; cases this; rw [hm]; rfl
      | missing =>
        refine ends_pure ⟨hk1, hl1, [], hr2, fun h => ?_⟩
        have := hfind h
        simp only [dbAnswer] at this
        simp only [St.compileFilters, if_pos hf, St.find]
        split at this
        · cases this
        · rename_i hft
          rw [if_neg hft]
          split at this
          · rename_i hm; rw [hm]; rfl
          · cases this
      | failed => exact ends_pure ⟨hk1, hl1, [], hr2, fun h => by rw [hbad (by simp) (by simp) h]; rfl⟩
      | found => exact ends_pure ⟨hk1, hl1, [], hr2, fun h => by rw [hbad (by simp) (by simp) h]; rfl⟩
      | bits _ => exact ends_pure ⟨hk1, hl1, [], hr2, fun h => by rw [hbad (by simp) (by simp) h]; rfl⟩
      | table _ => exact ends_pure ⟨hk1, hl1, [], hr2, fun h => by rw [hbad (by simp) (by simp) h]; rfl⟩
    · rw [if_neg hf]
      refine Prog.ends_mono ?_ _ _ _ (filterLoop_ends D st E R sc.scope l.n r sc.filters [] _ (by simp) hne (by simp; omega) hr1 ⟨_, _, Own.add_self ..⟩)
      rintro ok _ l' ⟨h1, h2, b, h3, h4⟩
      exact ⟨h1, h2, b, h3, fun h => by rw [St.compileFilters, if_neg hf]; exact h4 h⟩
  · rintro ok _ l' ⟨h1, ⟨x, y, h2⟩, b, h3, h4⟩
    refine ends_give h2 (release_fresh _ (by simp [Obj.kind])) (ends_pure ⟨?_, b, by rw [Own.set_ne _ _ (Ne.symm hne)]; exact h3, h4⟩)
    have := ((Keep.add [l.n, r] l (fresh .label)).trans h1).trans (Keep.set none (.inl (by simp)) : Keep [l.n, r] l' (l'.set l.n none))
    refine this.weaken ?_
    intro i hi hlt
    simp at hi ⊢
    omega

/-- The rows of one shard, going on from `b`. -/
def shardFrom (k : Nat) (cols : List Nat) (views : List Bytes) (b : Bm) : Bm := views.foldl (fun b v => b.or (Sh.matchRows (st.idx.disk.bits k v) cols)) b

theorem viewLoop_ends (R : Unit → Ask → Ans → Unit → Prop) (k : Nat) (cols : List Nat) (r : Nat) : ∀ (vs : List Bytes) (b : Bm) (l : Own),
    r < l.n → b.Ok → l.at_ r = some (.bitmap [] b) →
    (viewLoop k cols r vs).Ends R () l fun ok _ l' => Keep [r] l l' ∧
      ∃ b', l'.at_ r = some (.bitmap [] b') ∧ b'.Ok ∧ (Right D st E R → ok = true ∧ b' = shardFrom st k cols vs b) := by
  intro vs
  induction vs with
  | nil => intro b l _ hb hr; exact ends_pure ⟨Keep.refl _ _, b, hr, hb, fun _ => ⟨rfl, rfl⟩⟩
  | cons v vs ih =>
    intro b l hlt hb hr
    refine ends_ask fun a _ hR => ?_
    have hans : Right D st E R → a = .bits (Sh.matchRows (st.idx.disk.bits k v) cols) := fun h => h _ _ hR
    cases a with
    | bits x =>
      refine ends_use hr ?_
      refine Prog.ends_mono ?_ _ _ _ (ih (b.or x) _ hlt (Bm.or_ok hb) (Own.set_self ..))
      rintro ok _ l' ⟨h1, b', h2, h3, h4⟩
      refine ⟨(Keep.set _ (.inl (by simp))).trans h1, b', h2, h3, fun h => ?_⟩
      have := hans h; cases this
      exact h4 h
    | _ => exact ends_pure ⟨Keep.refl _ _, b, hr, hb, fun h => by cases hans h⟩

theorem or_nil {b : Bm} (h : b.Ok) : Bm.or [] b = b :=
  Bm.ext (Bm.or_ok List.Pairwise.nil) h fun z => by simp [Bm.mem_or]

/-- The result so far and where it is. -/
def IsBm (l : Own) : Option Nat → Option Bm → Prop
  | none, none => True
  | some c, some y => c < l.n ∧ y.Ok ∧ l.at_ c = some (.bitmap [] y)
  | _, _ => False

/-- The rows of one shard combined with the result so far. -/
def mergeBm (x : Bm) (b : Option Bm) : Bool × Option Bm :=
  if x = [] then (false, b) else match b with
    | none => (false, some x)
    | some y => (decide (y.and x = [] ∧ y ≠ []), some (y.and x))

/-- A bitmap that was there before, or a new one. -/
def FromOr (l : Own) (r r' : Option Nat) : Prop := r' = r ∨ (r = none ∧ ∃ c, r' = some c ∧ l.n ≤ c)

theorem mergeShard_ends (R : Unit → Ask → Ans → Unit → Prop) (k : Nat) (r : Option Nat) (b : Option Bm) (x : Bm) (l : Own) (hkl : k < l.n) (hx : x.Ok)
    (hk : l.at_ k = some (.bitmap [] x)) (hr : IsBm l r b) (hne : r ≠ some k) :
    (mergeShard k r).Ends R () l fun res _ l' => Keep (k :: r.toList) l l' ∧ FromOr l r res.2 ∧ res.1 = (mergeBm x b).1 ∧ IsBm l' res.2 (mergeBm x b).2 := by
  refine ends_look hk ?_
  show (if x = [] then _ else _ : P (Bool × Option Nat)).Ends R () l _
  by_cases h0 : x = []
  · rw [if_pos h0]
    refine ends_give hk (release_fresh _ (by simp [Obj.kind])) (ends_pure ⟨Keep.set _ (.inl (by simp)), .inl rfl, by simp [mergeBm, h0], ?_⟩)
    simp only [mergeBm, if_pos h0]
    cases r with
    | none => cases b <;> exact hr
    | some c =>
      cases b with
      | none => exact hr.elim
      | some y => exact ⟨hr.1, hr.2.1, by rw [Own.set_ne _ _ (by rintro rfl; exact hne rfl)]; exact hr.2.2⟩
  · rw [if_neg h0]
    cases r with
    | none =>
      cases b with
      | some y => exact hr.elim
      | none =>
        have hk1 : ((l.add (fresh .bitmap)).set l.n (some (Obj.onBits (fun y => y.or x) (fresh .bitmap)))).at_ k = some (.bitmap [] x) := by
          rw [Own.set_ne _ _ (by omega), Own.add_ne _ _ (by omega)]; exact hk
        refine ends_take (ends_use (Own.add_self ..) (ends_give hk1 (release_fresh _ (by simp [Obj.kind])) (ends_pure
          ⟨?_, .inr ⟨rfl, l.n, rfl, Nat.le_refl _⟩, by simp [mergeBm, h0], ?_⟩)))
        · refine ⟨by simp, fun i hi hS => ?_⟩
          rw [Own.set_ne _ _ (by rintro rfl; simp at hS), Own.set_ne _ _ (by omega), Own.add_ne _ _ (by omega)]
        · simp only [mergeBm, if_neg h0]
          refine ⟨by simp, hx, ?_⟩
          rw [Own.set_ne _ _ (by omega), Own.set_self]
          show some (Obj.bitmap [] (Bm.or [] x)) = _
          rw [or_nil hx]
    | some c =>
      cases b with
      | none => exact hr.elim
      | some y =>
        have hck : c ≠ k := by rintro rfl; exact hne rfl
        refine ends_look hr.2.2 (ends_use hr.2.2 (ends_give (o := .bitmap [] x) ?_ (release_fresh _ (by simp [Obj.kind])) (ends_pure
          ⟨?_, .inl rfl, by simp only [mergeBm, if_neg h0]; rfl, ?_⟩)))
        · rw [Own.set_ne _ _ (Ne.symm hck)]; exact hk
        · exact (Keep.set _ (.inl (by simp))).trans (Keep.set _ (.inl (by simp)))
        · simp only [mergeBm, if_neg h0]
          refine ⟨hr.1, Bm.and_ok hr.2.1, ?_⟩
          rw [Own.set_ne _ _ hck, Own.set_self]; rfl

theorem Keep.weak {S T : List Nat} {a b : Own} (h : Keep S a b) (hT : ∀ i ∈ S, a.n ≤ i ∨ i ∈ T) : Keep T a b :=
  h.weaken fun i hi hlt => (hT i hi).resolve_left (by omega)

theorem IsBm.keep {l l' : Own} {r : Option Nat} {b : Option Bm} {S : List Nat} (h : IsBm l r b) (hk : Keep S l l') (hS : ∀ c, r = some c → c ∉ S) : IsBm l' r b := by
  cases r <;> cases b
  · exact h
  · exact h
  · exact h
  · exact ⟨Nat.lt_of_lt_of_le h.1 hk.1, h.2.1, by rw [hk.2 _ h.1 (hS _ rfl)]; exact h.2.2⟩

theorem IsBm.lt {l : Own} {c : Nat} {b : Option Bm} (h : IsBm l (some c) b) : c < l.n := by
  cases b
  · exact h.elim
  · exact h.1

theorem rowsLoop_step {k : Nat} {f : List Nat} {views : List Bytes} {rest : AMap Nat (List Nat)} {b : Option Bm} (hk : k ∈ st.idx.opened) :
    Sh.rowsLoop st.idx views ((k, f) :: rest) b = (if (mergeBm (shardFrom st k f views []) b).1 then (mergeBm (shardFrom st k f views []) b).2
      else Sh.rowsLoop st.idx views rest (mergeBm (shardFrom st k f views []) b).2) := by
  have : Sh.shardRows st.idx.disk k views f = shardFrom st k f views [] := rfl
  simp only [Sh.rowsLoop, hk, not_true_eq_false, if_false, this, mergeBm]
  by_cases h0 : shardFrom st k f views [] = []
  · simp [h0]
  · simp only [if_neg h0]
    cases b with
    | none => rfl
    | some y =>
      simp only [decide_eq_true_eq]
      by_cases h1 : y.and (shardFrom st k f views []) = [] ∧ y ≠ []
      · rw [if_pos h1, if_pos h1, h1.1]
      · rw [if_neg h1, if_neg h1]

theorem rowsLoop_ends (R : Unit → Ask → Ans → Unit → Prop) (views : List Bytes) : ∀ (m : AMap Nat (List Nat)) (r : Option Nat) (b : Option Bm) (l : Own), IsBm l r b →
    (rowsLoop views m r).Ends R () l fun res _ l' => Keep r.toList l l' ∧
      (match res with
        | none => Right D st E R → E.rowsFault = true
        | some r' => FromOr l r r' ∧ ∃ b', IsBm l' r' b' ∧ (Right D st E R → (E.rowsFault = true → m = []) ∧ Sh.rowsLoop st.idx views m b = b')) := by
  intro m
  induction m with
  | nil =>
    intro r b l h
    exact ends_pure ⟨Keep.refl _ _, .inl rfl, b, h, fun _ => ⟨fun _ => rfl, rfl⟩⟩
  | cons kf rest ih =>
    obtain ⟨k, f⟩ := kf
    intro r b l h
    refine ends_ask fun a _ hR => ?_
    have hans : Right D st E R → a = dbAnswer D st E (.shard k) := fun h => h _ _ hR
    have hother : a ≠ .missing → a ≠ .failed → (Right D st E R → E.rowsFault = false ∧ k ∈ st.idx.opened) := by
      intro h1 h2 h
      have := hans h
      simp only [dbAnswer] at this
      split at this
      · exact absurd this h2
      · rename_i hf
        split at this
        · rename_i ho; exact ⟨by simpa using hf, ho⟩
        · exact absurd this h1
    have hmain : (Right D st E R → E.rowsFault = false ∧ k ∈ st.idx.opened) → (take .bitmap >>= fun b => viewLoop k f b views >>= fun ok =>
        if ok = true then mergeShard b r >>= fun m => if m.1 = true then pure (some m.2) else rowsLoop views rest m.2
        else pure none : P (Option (Option Nat))).Ends R () l fun res _ l' => Keep r.toList l l' ∧
      (match res with
        | none => Right D st E R → E.rowsFault = true
        | some r' => FromOr l r r' ∧ ∃ b', IsBm l' r' b' ∧ (Right D st E R → (E.rowsFault = true → (k, f) :: rest = []) ∧ Sh.rowsLoop st.idx views ((k, f) :: rest) b = b')) := by
      intro hgood
      refine ends_take (ends_seq (viewLoop_ends D st E R k f l.n views [] _ (by simp) List.Pairwise.nil (Own.add_self ..)) ?_)
      rintro ok _ l1 ⟨h1, x, h2, h3, h4⟩
      have hn1 : l.n + 1 ≤ l1.n := h1.1
      have hk0 : Keep [l.n] l l1 := (Keep.add [l.n] l (fresh .bitmap)).trans h1
      have hkeep1 : Keep r.toList l l1 := hk0.weak (by intro i hi; simp at hi; omega)
      have hfl : Right D st E R → (E.rowsFault = true → (k, f) :: rest = []) := fun h he => by rw [(hgood h).1] at he; cases he
      cases ok with
      | false => exact ends_pure ⟨hkeep1, fun h => by cases (h4 h).1⟩
      | true =>
        rw [if_pos rfl]
        have hr1 : IsBm l1 r b := h.keep hk0 (by rintro c rfl; have := h.lt; simp; omega)
        refine ends_seq (mergeShard_ends R l.n r b x l1 (by omega) h3 h2 hr1 (by rintro rfl; have := h.lt; omega)) ?_
        rintro ⟨stop, r'⟩ _ l2 ⟨k1, k2, k3, k4⟩
        simp only at k2 k3 k4
        have hkeep2 : Keep r.toList l l2 := by
          refine ⟨Nat.le_trans hkeep1.1 k1.1, fun i hi hS => ?_⟩
          rw [k1.2 i (by omega) (by simp only [List.mem_cons, not_or]; exact ⟨by omega, hS⟩), hkeep1.2 i hi hS]
        have hfrom : FromOr l r r' := by
          rcases k2 with rfl | ⟨hr, c, hc, hle⟩
          · exact .inl rfl
          · exact .inr ⟨hr, c, hc, by omega⟩
        cases stop with
        | true =>
          refine ends_pure ⟨hkeep2, hfrom, _, k4, fun hh => ⟨hfl hh, ?_⟩⟩
          rw [rowsLoop_step st (hgood hh).2, ← (h4 hh).2, ← k3]; rfl
        | false =>
          refine Prog.ends_mono ?_ _ _ _ (ih r' _ l2 k4)
          rintro res _ l' ⟨m1, m2⟩
          have hkeep3 : Keep r.toList l l' := by
            refine ⟨Nat.le_trans hkeep2.1 m1.1, fun i hi hS => ?_⟩
            rw [m1.2 i (by have := hkeep2.1; omega) ?_, hkeep2.2 i hi hS]
            rcases hfrom with rfl | ⟨-, c, rfl, hle⟩
            · exact hS
            · simp; omega
          refine ⟨hkeep3, ?_⟩
          cases res with
          | none => exact m2
          | some r'' =>
            obtain ⟨m3, b', m4, m5⟩ := m2
            refine ⟨?_, b', m4, fun hh => ⟨hfl hh, ?_⟩⟩
            · rcases hfrom with rfl | ⟨hr, c, hc, hle⟩
              · rcases m3 with rfl | ⟨hr, c, hc, hle⟩
                · exact .inl rfl
                · exact .inr ⟨hr, c, hc, by have := hkeep2.1; omega⟩
              · rcases m3 with rfl | ⟨hr', -⟩
                · exact .inr ⟨hr, c, hc, hle⟩
                · rw [hc] at hr'; cases hr'
            · rw [rowsLoop_step st (hgood hh).2, ← (h4 hh).2, ← k3]; exact (m5 hh).2
    cases a with
    | failed =>
      refine ends_pure ⟨Keep.refl _ _, fun hh => ?_⟩
      have := hans hh
      simp only [dbAnswer] at this
      split at this
      · rename_i hf; exact hf
      · split at this <;> cases this
    | missing =>
      have hclosed : Right D st E R → E.rowsFault = false ∧ k ∉ st.idx.opened := by
        intro hh
        have := hans hh
        simp only [dbAnswer] at this
        split at this
        · cases this
        · rename_i hf
          split at this
          · cases this
          · rename_i ho; exact ⟨by simpa using hf, ho⟩
      cases r with
      | none =>
        cases b with
        | some y => exact h.elim
        | none =>
          refine ends_pure ⟨Keep.refl _ _, .inl rfl, none, trivial, fun hh => ⟨fun he => (by rw [(hclosed hh).1] at he; cases he), ?_⟩⟩
          simp [Sh.rowsLoop, (hclosed hh).2]
      | some c =>
        cases b with
        | none => exact h.elim
        | some y =>
          refine ends_use h.2.2 (ends_pure ⟨Keep.set _ (.inl (by simp)), .inl rfl, some [], ⟨h.1, List.Pairwise.nil, Own.set_self ..⟩,
            fun hh => ⟨fun he => (by rw [(hclosed hh).1] at he; cases he), ?_⟩⟩)
          simp [Sh.rowsLoop, (hclosed hh).2]
    | found => exact hmain (hother (by simp) (by simp))
    | id _ => exact hmain (hother (by simp) (by simp))
    | bits _ => exact hmain (hother (by simp) (by simp))
    | table _ => exact hmain (hother (by simp) (by simp))

theorem Keep.set' {S : List Nat} {l l' : Own} (h : Keep S l l') {r : Nat} {x : Option Obj} (hr : r ∈ S ∨ l.n ≤ r) : Keep S l (l'.set r x) :=
  ⟨h.1, fun i hi hS => by rw [Own.set_ne _ _ (by rintro rfl; rcases hr with hr | hr <;> [exact hS hr; omega])]; exact h.2 i hi hS⟩
theorem Keep.add' {S : List Nat} {l l' : Own} (h : Keep S l l') {o : Obj} : Keep S l (l'.add o) :=
  ⟨Nat.le_succ_of_le h.1, fun i hi hS => by rw [Own.add_ne _ _ (by have := h.1; omega)]; exact h.2 i hi hS⟩

theorem readTable_ends (R : Unit → Ask → Ans → Unit → Prop) (kind : Int) (v : Bytes) (x : Bm) (l : Own) :
    (readTable kind v x).Ends R () l fun r _ l' => Keep [] l l' ∧ (Right D st E R → ∀ t, st.frame v = some t → r = Df.readRows kind t.rows x) := by
  refine ends_take (ends_ask fun a _ hR => ?_)
  have hans : Right D st E R → ∀ t, st.frame v = some t → a = .table t.rows := by
    intro h t ht
    have : a = _ := h _ _ hR
    simpa only [dbAnswer, ht] using this
  have hfail : ∀ a', a = a' → (∀ t, a' ≠ .table t) → (give l.n >>= fun _ => pure Df.Read.err : P Df.Read).Ends R () (l.add (fresh .schema)) fun r _ l' =>
      Keep [] l l' ∧ (Right D st E R → ∀ t, st.frame v = some t → r = Df.readRows kind t.rows x) := by
    intro a' ha hn
    exact ends_give (Own.add_self ..) rfl (ends_pure ⟨(Keep.refl _ _).add'.set' (.inr (Nat.le_refl _)), fun h t ht => absurd ((ha.symm.trans (hans h t ht))) (hn _)⟩)
  cases a with
  | table rows =>
    refine ends_take (ends_give (Own.add_self ..) rfl (ends_give (o := fresh .schema) ?_ rfl (ends_pure ⟨?_, fun h t ht => ?_⟩)))
    · rw [Own.set_ne _ _ (by simp), Own.add_ne _ _ (by simp)]; exact Own.add_self ..
    · exact (((Keep.refl _ _).add'.add').set' (.inr (by simp))).set' (.inr (Nat.le_refl _))
    · have := hans h t ht; cases this; rfl
  | _ => exact hfail _ rfl (by simp)

theorem readSet_ends (R : Unit → Ask → Ans → Unit → Prop) (kind : Int) (ids : Nat) (w : Bm) (v : Bytes) (b : Nat) (k : Bytes) (y : Bm) (l : Own)
    (hi : l.at_ ids = some (.bitmap [] w)) (hb : l.at_ b = some (.bitmap k y)) (hlt : b < l.n) (hne : ids ≠ b) :
    (readSet kind ids v b).Ends R () l fun r _ l' => Keep [b] l l' ∧ (∃ y', l'.at_ b = some (.bitmap k y')) ∧
      (Right D st E R → ∀ t, st.frame v = some t → r = if (t.set kind).and w = [] then .ok [] else Df.readRows kind t.rows ((t.set kind).and w)) := by
  refine ends_ask fun a _ hR => ?_
  have hans : Right D st E R → ∀ t, st.frame v = some t → a = .bits (t.set kind) := by
    intro h t ht
    have : a = _ := h _ _ hR
    simpa only [dbAnswer, ht] using this
  cases a with
  | bits s =>
    refine ends_use hb (ends_look (o := .bitmap [] w) (by rw [Own.set_ne _ _ hne]; exact hi) (ends_use (Own.set_self ..) ?_))
    show (if s.and w = [] then _ else _ : P Df.Read).Ends R () _ _
    have hk : Keep [b] l ((l.set b (some (Obj.bitmap k s))).set b (some (Obj.bitmap k (s.and w)))) := (Keep.set _ (.inl (by simp))).set' (.inl (by simp))
    by_cases h0 : s.and w = []
    · rw [if_pos h0]
      refine ends_pure ⟨hk, ⟨_, Own.set_self ..⟩, fun h t ht => ?_⟩
      have := hans h t ht; cases this
      rw [if_pos h0]
    · rw [if_neg h0]
      refine Prog.ends_mono ?_ _ _ _ (readTable_ends D st E R kind v (s.and w) _)
      rintro r _ l' ⟨h1, h2⟩
      refine ⟨hk.trans (h1.weak (by simp)), ⟨_, by rw [h1.2 b hlt (by simp)]; exact Own.set_self ..⟩, fun h t ht => ?_⟩
      have := hans h t ht; cases this
      rw [if_neg h0]; exact h2 h t ht
  | _ => exact ends_pure ⟨Keep.refl _ _, ⟨y, hb⟩, fun h t ht => by cases hans h t ht⟩

theorem readView_ends (R : Unit → Ask → Ans → Unit → Prop) (kind : Int) (ids : Nat) (w : Bm) (v : Bytes) (l : Own) (hlt : ids < l.n) (hi : l.at_ ids = some (.bitmap [] w)) :
    (readView kind ids v).Ends R () l fun r _ l' => Keep [] l l' ∧ (Right D st E R → r = Df.readView st.frame E.frameFault kind w v) := by
  refine ends_ask fun a _ hR => ?_
  have hans : Right D st E R → a = dbAnswer D st E (.view v) := fun h => h _ _ hR
  have hrest : a ≠ .missing → a ≠ .failed → (take .bitmap >>= fun b => readSet kind ids v b >>= fun r => give b >>= fun _ => pure r : P Df.Read).Ends R () l
      fun r _ l' => Keep [] l l' ∧ (Right D st E R → r = Df.readView st.frame E.frameFault kind w v) := by
    intro hm hf
    have hthere : Right D st E R → E.frameFault v = false ∧ ∃ r, st.frame v = some r := by
      intro h
      have := hans h
      simp only [dbAnswer] at this
      split at this
      · exact absurd this hf
      · rename_i hff
        split at this
        · exact absurd this hm
        · rename_i r hr; exact ⟨by simpa using hff, r, hr⟩
    refine ends_take (ends_seq (readSet_ends D st E R kind ids w v l.n [] [] _ (by rw [Own.add_ne _ _ (by omega)]; exact hi) (Own.add_self ..) (by simp) (by omega)) ?_)
    rintro r _ l' ⟨h1, ⟨y, h2⟩, h3⟩
    refine ends_give h2 (release_fresh _ (by simp [Obj.kind])) (ends_pure ⟨?_, fun h => ?_⟩)
    · refine Keep.set' ?_ (.inr (Nat.le_refl _))
      exact ((Keep.add [l.n] l _).trans h1).weak (by simp)
    · obtain ⟨hff, t, ht⟩ := hthere h
      rw [h3 h t ht]
      simp [Df.readView, hff, ht]
  cases a with
  | missing =>
    refine ends_pure ⟨Keep.refl _ _, fun h => ?_⟩
    have := hans h
    simp only [dbAnswer] at this
    split at this
    · cases this
    · rename_i hff
      split at this
      · rename_i hn; simp [Df.readView, hn, hff]
      · cases this
  | failed =>
    refine ends_pure ⟨Keep.refl _ _, fun h => ?_⟩
    have := hans h
    simp only [dbAnswer] at this
    split at this
    · rename_i hff; simp [Df.readView, hff]
    · split at this <;> cases this
  | _ => exact hrest (by simp) (by simp)

theorem unmarshal_ends (R : Unit → Ask → Ans → Unit → Prop) (kind : Int) (ids : Nat) (w : Bm) : ∀ (vs : List Bytes) (l : Own), ids < l.n → l.at_ ids = some (.bitmap [] w) →
    (unmarshal kind ids vs).Ends R () l fun r _ l' => Keep [] l l' ∧ (Right D st E R → r = Df.unmarshal st.frame E.frameFault kind w vs) := by
  intro vs
  induction vs with
  | nil => intro l _ _; exact ends_pure ⟨Keep.refl _ _, fun _ => rfl⟩
  | cons v vs ih =>
    intro l hlt hi
    refine ends_seq (readView_ends D st E R kind ids w v l hlt hi) ?_
    rintro r _ l1 ⟨h1, h2⟩
    cases r with
    | err => exact ends_pure ⟨h1, fun h => by simp only [Df.unmarshal, ← h2 h]⟩
    | outOfRange => exact ends_pure ⟨h1, fun h => by simp only [Df.unmarshal, ← h2 h]⟩
    | ok a =>
      refine ends_seq (ih l1 (Nat.lt_of_lt_of_le hlt h1.1) (by rw [h1.2 _ hlt (by simp)]; exact hi)) ?_
      rintro r' _ l2 ⟨h3, h4⟩
      cases r' with
      | err => exact ends_pure ⟨h1.trans h3, fun h => by simp only [Df.unmarshal, ← h2 h, ← h4 h]⟩
      | outOfRange => exact ends_pure ⟨h1.trans h3, fun h => by simp only [Df.unmarshal, ← h2 h, ← h4 h]⟩
      | ok b => exact ends_pure ⟨h1.trans h3, fun h => by simp only [Df.unmarshal, ← h2 h, ← h4 h]⟩

theorem collapseG_ends {α : Type} (R : Unit → Ask → Ans → Unit → Prop) (signal : Int) (H : Dt.Par) (o : Dt.Ops α) (perm : AMap Nat Nat → AMap Nat Nat)
    (ds : List (Option (List (ResourceG α)))) (l : Own) :
    (collapseG signal H o perm ds).Ends R () l fun r _ l' => Keep [] l l' ∧ r = Dt.collapseG H o perm ds := by
  have hrel : ∀ s, (Obj.sorter signal s).release = fresh (Obj.sorter signal s).kind := fun s => release_fresh _ (by simp [Obj.kind])
  refine ends_take ?_
  cases hd : ds.mapM id with
  | none =>
    simp only
    exact ends_give (Own.add_self ..) (hrel _) (ends_pure ⟨(Keep.refl _ _).add'.set' (.inr (Nat.le_refl _)), by simp only [Dt.collapseG, hd]⟩)
  | some ls =>
    refine ends_look (Own.add_self ..) ?_
    have hst : (fresh (.sorter signal)).st = ({} : Dt.St α) := rfl
    simp only [hst]
    cases hadd : Dt.addAll H o ls.flatten {} with
    | none =>
      simp only
      exact ends_give (Own.add_self ..) (hrel _) (ends_pure ⟨(Keep.refl _ _).add'.set' (.inr (Nat.le_refl _)), by simp only [Dt.collapseG, hd, hadd, Option.map_none]⟩)
    | some s =>
      simp only
      refine ends_use (Own.add_self ..) (ends_use (Own.set_self ..) (ends_give (Own.set_self ..) (hrel _) (ends_pure
        ⟨(((Keep.refl _ _).add'.set' (.inr (Nat.le_refl _))).set' (.inr (Nat.le_refl _))).set' (.inr (Nat.le_refl _)), ?_⟩)))
      simp only [Dt.collapseG, hd, hadd, Option.map_some]
      rfl

theorem collapse_ends (R : Unit → Ask → Ans → Unit → Prop) (H : Dt.Par) (perm : AMap Nat Nat → AMap Nat Nat) (ts : List Data) (l : Own) :
    (collapse H perm ts).Ends R () l fun r _ l' => Keep [] l l' ∧ r = Dt.collapse H perm ts := by
  match ts with
  | [] => exact ends_pure ⟨Keep.refl _ _, rfl⟩
  | [d] => exact ends_pure ⟨Keep.refl _ _, rfl⟩
  | d :: e :: r =>
    cases d with
    | none => exact ends_pure ⟨Keep.refl _ _, rfl⟩
    | metrics _ => exact ends_seq (collapseG_ends R _ H _ perm _ l) fun r _ l' h => ends_pure ⟨h.1, by rw [h.2]; rfl⟩
    | logs _ => exact ends_seq (collapseG_ends R _ H _ perm _ l) fun r _ l' h => ends_pure ⟨h.1, by rw [h.2]; rfl⟩
    | traces _ => exact ends_seq (collapseG_ends R _ H _ perm _ l) fun r _ l' h => ends_pure ⟨h.1, by rw [h.2]; rfl⟩

theorem readSamples_ends (R : Unit → Ask → Ans → Unit → Prop) (sc : Scan) (ids : Nat) (w : Bm) (l : Own) (hlt : ids < l.n) (hi : l.at_ ids = some (.bitmap [] w)) :
    (readSamples E sc ids).Ends R () l fun r _ l' => Keep [] l l' ∧ (Right D st E R → r = St.readSamples st E sc w) := by
  rw [readSamples]
  by_cases hs : sc.scope = Res.metrics ∨ sc.scope = Res.logs ∨ sc.scope = Res.traces
  · rw [if_pos hs]
    refine ends_seq (unmarshal_ends D st E R sc.scope ids w _ l hlt hi) ?_
    rintro r _ l1 ⟨h1, h2⟩
    cases r with
    | outOfRange => exact ends_pure ⟨h1, fun h => by simp only [St.readSamples, if_pos hs, ← h2 h]⟩
    | err => exact ends_pure ⟨h1, fun h => by simp only [St.readSamples, if_pos hs, ← h2 h]⟩
    | ok a =>
      refine ends_seq (collapse_ends R E.P E.resOrder (a.map (·.2)) l1) ?_
      rintro r' _ l2 ⟨h3, h4⟩
      cases r' with
      | none => exact ends_pure ⟨h1.trans h3, fun h => by simp only [St.readSamples, if_pos hs, ← h2 h, ← h4]⟩
      | some d => exact ends_pure ⟨h1.trans h3, fun h => by simp only [St.readSamples, if_pos hs, ← h2 h, ← h4]⟩
  · rw [if_neg hs]
    exact ends_pure ⟨Keep.refl _ _, fun h => by simp only [St.readSamples, if_neg hs]⟩

theorem scanSamples_ends (R : Unit → Ask → Ans → Unit → Prop) (sc : Scan) (ids : Nat) (w : Bm) (l : Own) (hlt : ids < l.n) (hi : l.at_ ids = some (.bitmap [] w)) :
    (scanSamples E sc ids).Ends R () l fun r _ l' => Keep [ids] l l' ∧ (∃ w', l'.at_ ids = some (.bitmap [] w')) ∧
      (Right D st E R → r = if w = [] then .data (Dt.zero sc.scope) else St.readSamples st E sc (St.chosen sc w)) := by
  refine ends_look hi ?_
  show (if w = [] then _ else _ : P Result).Ends R () _ _
  by_cases h0 : w = []
  · rw [if_pos h0]; exact ends_pure ⟨Keep.refl _ _, ⟨w, hi⟩, fun _ => by rw [if_pos h0]⟩
  · rw [if_neg h0]
    cases ht : sc.time.range with
    | some x =>
      simp only [choose, ht]
      refine ends_look hi ?_
      refine Prog.ends_mono ?_ _ _ _ (readSamples_ends D st E R sc ids w l hlt hi)
      rintro r _ l' ⟨h1, h2⟩
      exact ⟨h1.weak (by simp), ⟨w, by rw [h1.2 _ hlt (by simp)]; exact hi⟩, fun h => by rw [if_neg h0, h2 h]; simp only [St.chosen, ht]⟩
    | none =>
      simp only [choose, ht]
      refine ends_use hi ?_
      refine Prog.ends_mono ?_ _ _ _ (readSamples_ends D st E R sc ids _ _ hlt (Own.set_self ..))
      rintro r _ l' ⟨h1, h2⟩
      refine ⟨(Keep.set _ (.inl (by simp))).trans (h1.weak (by simp)), ⟨_, by rw [h1.2 _ hlt (by simp)]; exact Own.set_self ..⟩, fun h => ?_⟩
      rw [if_neg h0, h2 h]; simp only [St.chosen, ht]
      cases w.getLast? <;> rfl

theorem scanColumns_ends (hperm : ∀ m, (E.colOrder m).Perm m) (R : Unit → Ask → Ans → Unit → Prop) (sc : Scan) (c : Nat) (b : Bm) (l : Own) (hlt : c < l.n)
    (hc : l.at_ c = some (.bitmap [] b)) :
    (scanColumns E sc c).Ends R () l fun r _ l' => Keep [] l l' ∧ (Right D st E R → r =
      if b = [] then .data (Dt.zero sc.scope)
      else if E.rowsFault then .err
      else match st.idx.rows (E.views sc) (E.colOrder (Sh.groupCols b)) with
        | none => .data (Dt.zero sc.scope)
        | some ids => if ids = [] then .data (Dt.zero sc.scope) else St.readSamples st E sc (St.chosen sc ids)) := by
  refine ends_look hc ?_
  show (if b = [] then _ else _ : P Result).Ends R () _ _
  by_cases h0 : b = []
  · rw [if_pos h0]; exact ends_pure ⟨Keep.refl _ _, fun _ => by rw [if_pos h0]⟩
  rw [if_neg h0]
  have hne : E.colOrder (Sh.groupCols b) ≠ [] := by
    intro h
    have hp := hperm (Sh.groupCols b)
    rw [h] at hp
    have : Sh.groupCols b = [] := hp.symm.eq_nil
    match hb : b with
    | [] => exact h0 rfl
    | x :: r =>
      have hg := Sh.get_groupCols (x :: r) (x / Bt.shardWidth)
      rw [this] at hg
      simp [AMap.get] at hg
  refine ends_seq (rowsLoop_ends D st E R (E.views sc) (E.colOrder (Sh.groupCols b)) none none l trivial) ?_
  rintro res _ l1 ⟨h1, h2⟩
  cases res with
  | none => exact ends_pure ⟨h1, fun h => by rw [if_neg h0, if_pos (h2 h)]⟩
  | some r =>
    obtain ⟨h3, b', h4, h5⟩ := h2
    have hff : Right D st E R → E.rowsFault = false := by
      intro h
      cases hf : E.rowsFault with
      | false => rfl
      | true => exact absurd ((h5 h).1 hf) hne
    cases r with
    | none =>
      cases b' with
      | some y => exact h4.elim
      | none =>
        refine ends_pure ⟨h1, fun h => ?_⟩
        rw [if_neg h0, hff h]
        simp only [Sh.Store.rows, (h5 h).2]
        rfl
    | some ids =>
      cases b' with
      | none => exact h4.elim
      | some w =>
        have hge : l.n ≤ ids := by
          rcases h3 with h | ⟨-, c', hc', hle⟩
          · cases h
          · cases hc'; exact hle
        refine ends_seq (scanSamples_ends D st E R sc ids w l1 h4.1 h4.2.2) ?_
        rintro r _ l2 ⟨k1, ⟨w', k2⟩, k3⟩
        refine ends_give k2 (release_fresh _ (by simp [Obj.kind])) (ends_pure ⟨Keep.set' ?_ (.inr hge), fun h => ?_⟩)
        · have : Keep [ids] l l2 := (h1.weak (by simp)).trans k1
          exact this.weak (by simpa using hge)
        · rw [if_neg h0, hff h, k3 h]
          simp only [Sh.Store.rows, (h5 h).2]
          rfl

theorem scan_ends (hperm : ∀ m, (E.colOrder m).Perm m) (R : Unit → Ask → Ans → Unit → Prop) (sc : Scan) (l : Own) :
    (scan E sc).Ends R () l fun r _ l' => Keep [] l l' ∧ (Right D st E R → r = St.scan D st E sc) := by
  refine ends_take (ends_take ?_)
  refine ends_seq (Ψ := fun r _ l' => Keep [l.n + 1] ((l.add (fresh .key)).add (fresh .bitmap)) l' ∧ (∃ b, l'.at_ (l.n + 1) = some (.bitmap [] b)) ∧
    (Right D st E R → r = St.scan D st E sc)) ?_ ?_
  · refine ends_seq (compileFilters_ends D st E R sc (l.n + 1) _ (by simp) (Own.add_self ..)) ?_
    rintro ok _ l1 ⟨h1, b, h2, h3⟩
    cases ok with
    | false =>
      refine ends_pure ⟨h1, ⟨b, h2⟩, fun h => ?_⟩
      simp only [St.scan, h3 h]; rfl
    | true =>
      have hlt : l.n + 1 < l1.n := Nat.lt_of_lt_of_le (by simp) h1.1
      refine Prog.ends_mono ?_ _ _ _ (scanColumns_ends D st E hperm R sc (l.n + 1) b l1 hlt h2)
      rintro r _ l' ⟨k1, k2⟩
      refine ⟨h1.trans (k1.weak (by simp)), ⟨b, by rw [k1.2 _ hlt (by simp)]; exact h2⟩, fun h => ?_⟩
      rw [k2 h]
      simp only [St.scan, h3 h, if_true]
      split
      · rfl
      · split
        · rfl
        · cases st.idx.rows (E.views sc) (E.colOrder (Sh.groupCols b)) <;> rfl
  · rintro r _ l' ⟨h1, ⟨b, h2⟩, h3⟩
    refine ends_give h2 (release_fresh _ (by simp [Obj.kind])) (ends_give (o := fresh .key) ?_ rfl (ends_pure ⟨?_, h3⟩))
    · rw [Own.set_ne _ _ (by simp), h1.2 l.n (by simp; omega) (by simp), Own.add_ne _ _ (by simp)]; exact Own.add_self ..
    · refine Keep.set' (Keep.set' ?_ (.inr (by simp))) (.inr (Nat.le_refl _))
      have : Keep [l.n + 1] l l' := (Keep.refl _ _).add'.add'.trans h1
      exact this.weak (by simp)

end Verif.Pl
