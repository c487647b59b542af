import Verif.Spec.EndToEnd
import Verif.Props.Service
import Verif.Props.Collapse
import Verif.Props.Visit
/-! Records are not invented by any of the stages. -/
namespace Verif
open Tm

theorem items_logs (rs : List (ResourceG LogRecord)) : (Data.logs rs).items = (Dt.plainRecords rs).map .log := by
  simp only [Data.items, Dt.plainRecords, List.map_flatMap]
theorem items_traces (rs : List (ResourceG Span)) : (Data.traces rs).items = (Dt.plainRecords rs).map .span := by
  simp only [Data.items, Dt.plainRecords, List.map_flatMap]
theorem items_metrics (rs : List (ResourceG Metric)) : (Data.metrics rs).items = (Dt.plainPoints rs).map fun x => .point x.1 x.2 := by
  simp only [Data.items, Dt.plainPoints, List.map_flatMap]
  congr 1; funext r; congr 1; funext s; congr 1; funext m
  unfold Dt.Metric.points
  cases m.data <;> simp

/-! ## Merging -/

theorem mapM_of {β : Type} {f : Data → Option β} {g : β → Data} (hfg : ∀ d b, f d = some b → d = g b) :
    ∀ {ts : List Data} {l : List β}, (ts.map f).mapM id = some l → ts = l.map g := by
  intro ts
  induction ts with
  | nil => intro l h; simp at h; subst h; rfl
  | cons t ts ih =>
    intro l h
    rw [List.map_cons, List.mapM_cons] at h
    simp only [id, Option.bind_eq_bind, Option.bind_eq_some_iff] at h
    obtain ⟨b, h1, bs, h2, h3⟩ := h
    cases h3
    rw [List.map_cons, ← ih h2, ← hfg _ _ h1]

theorem mapM_of_collapse {α : Type} {P : Dt.Par} {o : Dt.Ops α} {perm : AMap Nat Nat → AMap Nat Nat} {l : List (Option (List (ResourceG α)))} {r : List (ResourceG α)}
    (h : Dt.collapseG P o perm l = some r) : ∃ rs, l.mapM id = some rs := by
  unfold Dt.collapseG at h
  cases hm : l.mapM id with
  | none => rw [hm] at h; cases h
  | some rs => exact ⟨rs, rfl⟩

/-- Merging invents nothing and loses nothing. -/
theorem collapse_items {P : Dt.Par} {perm : AMap Nat Nat → AMap Nat Nat} (hp : ∀ m, (perm m).Perm m) {ts : List Data} {d : Data}
    (h : Dt.collapse P perm ts = some (some d)) : d.items.Perm (ts.flatMap Data.items) := by
  have hds : (∃ ds, ds ≠ [] ∧ ts = List.map Data.logs ds) ∨ (∃ ds, ds ≠ [] ∧ ts = List.map Data.traces ds) ∨ (∃ ds, ds ≠ [] ∧ ts = List.map Data.metrics ds) ∨ ts = [d] := by
    match ts, h with
    | [], h => cases h
    | [d'], h => cases h; exact .inr (.inr (.inr rfl))
    | a :: b :: l, h =>
      cases a with
      | none => cases h
      | logs x =>
        left
        simp only [Dt.collapse, Option.map_eq_some_iff] at h
        obtain ⟨r, hr, -⟩ := h
        obtain ⟨rs, hm⟩ := mapM_of_collapse hr
        have := mapM_of (g := .logs) (f := Dt.Data.logs?) (fun d b h => by cases d <;> cases h; rfl) hm
        exact ⟨rs, (by rintro rfl; cases this), this⟩
      | traces x =>
        right; left
        simp only [Dt.collapse, Option.map_eq_some_iff] at h
        obtain ⟨r, hr, -⟩ := h
        obtain ⟨rs, hm⟩ := mapM_of_collapse hr
        have := mapM_of (g := .traces) (f := Dt.Data.traces?) (fun d b h => by cases d <;> cases h; rfl) hm
        exact ⟨rs, (by rintro rfl; cases this), this⟩
      | metrics x =>
        right; right; left
        simp only [Dt.collapse, Option.map_eq_some_iff] at h
        obtain ⟨r, hr, -⟩ := h
        obtain ⟨rs, hm⟩ := mapM_of_collapse hr
        have := mapM_of (g := .metrics) (f := Dt.Data.metrics?) (fun d b h => by cases d <;> cases h; rfl) hm
        exact ⟨rs, (by rintro rfl; cases this), this⟩
  have flat : ∀ {α β : Type} (f : List α → Data) (g : α → List β) (k : β → Item) (hk : ∀ rs, (f rs).items = (rs.flatMap g).map k) (ds : List (List α)),
      (ds.map f).flatMap Data.items = (ds.flatten.flatMap g).map k := by
    intro α β f g k hk ds
    induction ds with
    | nil => rfl
    | cons d ds ih => rw [List.map_cons, List.flatMap_cons, List.flatten_cons, List.flatMap_append, List.map_append, ih, hk]
  rcases hds with ⟨ds, hne, rfl⟩ | ⟨ds, hne, rfl⟩ | ⟨ds, hne, rfl⟩ | rfl
  · obtain ⟨out, h1, h2, -⟩ := Dt.C33_logs P perm hp ds hne
    rw [h] at h1; cases h1
    rw [items_logs, flat Data.logs _ Item.log items_logs]
    exact h2.map _
  · obtain ⟨out, h1, h2, -⟩ := Dt.C33_traces P perm hp ds hne
    rw [h] at h1; cases h1
    rw [items_traces, flat Data.traces _ Item.span items_traces]
    exact h2.map _
  · obtain ⟨out, h1, h2, -⟩ := Dt.C33_metrics P perm hp ds hne _ h
    cases h1
    rw [items_metrics, flat Data.metrics _ (fun x : MKind × DataPoint => Item.point x.1 x.2) items_metrics]
    exact h2.map _
  · simp

/-! ## The data frame -/

namespace Df

/-- All rows of all tables are empty or satisfy `P`. -/
def All (P : Data → Prop) (f : Frame) : Prop := ∀ v r, f v = some r → ∀ d ∈ r.rows, d = .none ∨ P d

theorem All.rows {P : Data → Prop} : ∀ (ss : List Sample) (st : AppendState), (∀ d ∈ st.recd.rows, d = .none ∨ P d) → (∀ s ∈ ss, P s.data) →
    ∀ d ∈ (ss.foldl appendOne st).recd.rows, d = .none ∨ P d := by
  intro ss
  induction ss with
  | nil => intro st h _; exact h
  | cons s ss ih =>
    intro st h hs
    refine ih _ ?_ fun x hx => hs x (by simp [hx])
    intro d hd
    simp only [appendOne, setSample_rows, List.mem_append, List.mem_replicate, List.mem_singleton] at hd
    rcases hd with (hd | ⟨-, rfl⟩) | rfl
    · exact h d hd
    · exact .inl rfl
    · exact .inr (hs s (by simp))

theorem All.append {P : Data → Prop} {f : Frame} (h : All P f) (v : Bytes) {ss : List Sample} (hs : ∀ s ∈ ss, P s.data) : All P (appendView f v ss) := by
  intro v' r hr
  simp only [appendView] at hr
  split at hr
  · cases hr
    refine All.rows ss _ ?_ hs
    unfold startState
    cases hf : f v with
    | none => intro d hd; cases hd
    | some r => exact h v r hf
  · exact h v' r hr

theorem All.appends {P : Data → Prop} : ∀ (m : List (Bytes × List Sample)) {f : Frame}, All P f → (∀ e ∈ m, ∀ s ∈ e.2, P s.data) →
    All P (m.foldl (fun f e => appendView f e.1 e.2) f) := by
  intro m
  induction m with
  | nil => intro f h _; exact h
  | cons e m ih => intro f h hm; exact ih (h.append _ (hm e (by simp))) fun e he => hm e (by simp [he])

theorem get_mem {κ ν : Type} [DecidableEq κ] {k : κ} {v : ν} : ∀ {m : AMap κ ν}, m.get k = some v → (k, v) ∈ m := by
  intro m
  induction m with
  | nil => intro h; cases h
  | cons e m ih =>
    intro h
    obtain ⟨k', v'⟩ := e
    simp only [AMap.get] at h
    split at h
    · rename_i e; cases h; subst e; exact List.mem_cons_self
    · exact List.mem_cons_of_mem _ (ih h)

theorem group_mem {Q : Sample → Prop} : ∀ (ss : List Sample) (m m' : AMap Bytes (List Sample)), groupViews ss m = some m' → (∀ s ∈ ss, Q s) →
    (∀ e ∈ m, ∀ s ∈ e.2, Q s) → ∀ e ∈ m', ∀ s ∈ e.2, Q s := by
  intro ss
  induction ss with
  | nil => intro m m' h _ hm; cases h; exact hm
  | cons x ss ih =>
    intro m m' h hs hm
    simp only [groupViews] at h
    split at h
    · cases h
    · rename_i vs hvs
      clear hvs
      refine ih _ _ h (fun s hx => hs s (by simp [hx])) ?_
      have hx := hs x (by simp)
      clear h
      induction vs generalizing m with
      | nil => exact hm
      | cons v vs ihv =>
        refine ihv _ ?_
        intro e he
        rcases St.mem_set he with rfl | h
        · intro s hs'
          rcases List.mem_append.1 hs' with h | h
          · cases hg : m.get v with
            | none => rw [hg] at h; cases h
            | some l =>
              rw [hg] at h
              obtain ⟨e, he', rfl⟩ : ∃ e ∈ m, e.2 = l := by
                exact ⟨_, get_mem hg, rfl⟩
              exact hm e he' s h
          · rw [List.mem_singleton.1 h]; exact hx
        · exact hm e h

end Df

namespace St
open Tf
variable {σ : Type} {D : Dict σ} {P : Data → Prop}

theorem processAll_data {tr : Translator σ} : ∀ {ss ss' : List Sample} {c c' : Ctx σ}, processAll tr ss c = some (c', ss') → ss'.map (·.data) = ss.map (·.data) := by
  intro ss
  induction ss with
  | nil => intro ss' c c' h; cases h; rfl
  | cons s ss ih =>
    intro ss' c c' h
    simp only [processAll, Option.bind_eq_bind, Option.bind_eq_some_iff] at h
    obtain ⟨⟨c1, s1⟩, h1, ⟨c2, ss2⟩, h2, h3⟩ := h
    cases h3
    rw [List.map_cons, List.map_cons, ih h2]
    rw [processSample_eq] at h1
    cases ht : Tf.transAll tr (resLabel c.resource :: dataLabels s.data) (c.st, []) with
    | none => rw [ht] at h1; cases h1
    | some x => rw [ht] at h1; cases h1; rfl

theorem save_all (s : Store σ) (fl : Flush) (ho : ∀ m, (fl.viewOrder m).Perm m) (h : Df.All P s.frame) (hs : ∀ x ∈ fl.samples, P x.data) :
    Df.All P (saveSamples D s fl).1.frame := by
  unfold saveSamples
  cases hp : processSamples D.tr fl.samples s.ctx with
  | none => exact h
  | some x =>
    obtain ⟨ctx, ss, f⟩ := x
    have hd : ss.map (·.data) = fl.samples.map (·.data) := by
      simp only [processSamples, Option.bind_eq_bind, Option.bind_eq_some_iff] at hp
      obtain ⟨⟨c1, s1⟩, h1, h2⟩ := hp
      have := processAll_data h1
      cases h2
      exact this
    have hss : ∀ x ∈ ss, P x.data := by
      intro x hx
      have : x.data ∈ fl.samples.map (·.data) := hd ▸ List.mem_map_of_mem hx
      obtain ⟨y, hy, e⟩ := List.mem_map.1 this
      rw [← e]; exact hs y hy
    cases f with
    | none => exact h
    | some f =>
      simp only
      cases hg : Df.groupViews ss [] with
      | none => exact h
      | some m =>
        have hm := Df.group_mem (Q := fun x => P x.data) ss [] m hg hss (by simp)
        have ha : Df.All P (Df.appendViews s.frame (fl.viewOrder m) fl.commits).1 :=
          Df.All.appends _ h fun e he => hm e ((ho m).mem_iff.1 (List.mem_of_mem_take he))
        simp only
        split <;> exact ha

theorem read_items {kind : Int} {rows : List Data} (h : ∀ d ∈ rows, d = .none ∨ P d) : ∀ {is : List Nat} {l : List (Nat × Data)}, Df.readRows kind rows is = .ok l →
    ∀ e ∈ l, ∀ x ∈ e.2.items, ∃ d, P d ∧ x ∈ d.items := by
  intro is
  induction is with
  | nil => intro l h; cases h; intro e he; cases he
  | cons i is ih =>
    intro l hl
    simp only [Df.readRows] at hl
    split at hl
    · cases hl
    · rename_i d hd
      split at hl
      · rename_i l' hl'
        cases hl
        intro e he x hx
        rcases List.mem_cons.1 he with rfl | he
        · have hm := List.mem_of_getElem? hd
          have hx' : x ∈ d.items := by
            cases d with
            | none => exact hx
            | logs rs => simp only [Df.project] at hx; split at hx; exact hx; cases hx
            | traces rs => simp only [Df.project] at hx; split at hx; exact hx; cases hx
            | metrics rs => simp only [Df.project] at hx; split at hx; exact hx; cases hx
          rcases h d hm with rfl | hp
          · cases hx'
          · exact ⟨d, hp, hx'⟩
        · exact ih hl' e he x hx
      · rename_i hne
        exact absurd hl (hne l)

theorem unmarshal_items {f : Df.Frame} (h : Df.All P f) {fault : Bytes → Bool} {kind : Int} {wanted : Bm} : ∀ {vs : List Bytes} {l : List (Nat × Data)},
    Df.unmarshal f fault kind wanted vs = .ok l → ∀ e ∈ l, ∀ x ∈ e.2.items, ∃ d, P d ∧ x ∈ d.items := by
  intro vs
  induction vs with
  | nil => intro l h; cases h; intro e he; cases he
  | cons v vs ih =>
    intro l hl
    simp only [Df.unmarshal] at hl
    split at hl
    · rename_i l1 h1
      split at hl
      · rename_i l2 h2
        cases hl
        intro e he x hx
        rcases List.mem_append.1 he with he | he
        · unfold Df.readView at h1
          split at h1
          · cases h1
          · split at h1
            · cases h1; cases he
            · rename_i r hr
              split at h1
              · cases h1; cases he
              · exact read_items (h v r hr) h1 e he x hx
        · exact ih h2 e he x hx
      · rename_i hne
        exact absurd hl (hne l)
    · rename_i hne
      exact absurd hl (hne l)

/-- A scan returns records of the data frame only. -/
theorem scan_items {s : Store σ} (h : Df.All P s.frame) {E : Env} (hE : ∀ m, (E.resOrder m).Perm m) (sc : Scan) :
    ∀ x ∈ (scan D s E sc).items, ∃ d, P d ∧ x ∈ d.items := by
  have hz : ∀ x ∈ (Result.data (Dt.zero sc.scope)).items, ∃ d, P d ∧ x ∈ d.items := by
    intro x hx
    unfold Dt.zero at hx
    split_ifs at hx <;> cases hx
  intro x
  unfold scan
  split
  · intro hx; cases hx
  · split
    · exact hz x
    · split
      · intro hx; cases hx
      · split
        · exact hz x
        · split
          · exact hz x
          · unfold readSamples
            split
            · split
              · intro hx; cases hx
              · intro hx; cases hx
              · rename_i l hl
                split
                · intro hx; cases hx
                · rename_i d hd
                  cases d with
                  | none => intro hx; cases hx
                  | some d =>
                    intro hx
                    have := (collapse_items hE hd).mem_iff.1 hx
                    obtain ⟨t, ht, hx⟩ := List.mem_flatMap.1 this
                    obtain ⟨e, he, rfl⟩ := List.mem_map.1 ht
                    exact unmarshal_items h hl e he x hx
            · intro hx; cases hx

end St

/-! ## Filtering -/

namespace Vs
variable {H : Hashes} {α : Type}

theorem select_sublist {β : Type} {f : β → Option Bool} : ∀ {xs ys : List β}, select f xs = some ys → ys.Sublist xs := by
  intro xs
  induction xs with
  | nil => intro ys h; cases h; exact .slnil
  | cons x xs ih =>
    intro ys h
    simp only [select] at h
    split at h
    · cases h
    · split at h
      · cases h
      · rename_i l hl
        cases h
        split
        · exact (ih hl).cons_cons x
        · exact (ih hl).cons x

theorem flatMap_sublist {β γ : Type} {f g : β → List γ} {x y : List γ} {xs : List β} {ys : List β} (h1 : x.Sublist y) (h2 : (xs.flatMap f).Sublist (ys.flatMap g)) :
    (x ++ xs.flatMap f).Sublist (y ++ ys.flatMap g) := h1.append h2

theorem scopes_sublist {β : Type} {A : All} {sel : List α → Option (List α)} {g : α → List β} (hsel : ∀ xs ys, sel xs = some ys → (ys.flatMap g).Sublist (xs.flatMap g)) :
    ∀ {sms out : List (ScopeG α)}, visitScopes H A sel sms = some out → (out.flatMap fun s => s.items.flatMap g).Sublist (sms.flatMap fun s => s.items.flatMap g) := by
  intro sms
  induction sms with
  | nil => intro out h; cases h; exact .slnil
  | cons sm rest ih =>
    intro out h
    simp only [visitScopes] at h
    rw [List.flatMap_cons]
    split at h
    · cases h
    · exact (ih h).trans (List.sublist_append_right _ _)
    · split at h
      · cases h
      · rename_i items hi
        split at h
        · cases h
        · rename_i o ho
          cases h
          split
          · exact (ih ho).trans (List.sublist_append_right _ _)
          · rw [List.flatMap_cons]
            exact (hsel _ _ hi).append (ih ho)

theorem resources_sublist {β : Type} {A : All} {sel : List α → Option (List α)} {g : α → List β} (hsel : ∀ xs ys, sel xs = some ys → (ys.flatMap g).Sublist (xs.flatMap g)) :
    ∀ {rms out : List (ResourceG α)}, visitResources H A sel rms = some out →
      (out.flatMap fun r => r.scopes.flatMap fun s => s.items.flatMap g).Sublist (rms.flatMap fun r => r.scopes.flatMap fun s => s.items.flatMap g) := by
  intro rms
  induction rms with
  | nil => intro out h; cases h; exact .slnil
  | cons rm rest ih =>
    intro out h
    simp only [visitResources] at h
    rw [List.flatMap_cons]
    split at h
    · cases h
    · exact (ih h).trans (List.sublist_append_right _ _)
    · split at h
      · cases h
      · rename_i scopes hs
        split at h
        · cases h
        · rename_i o ho
          cases h
          split
          · exact (ih ho).trans (List.sublist_append_right _ _)
          · rw [List.flatMap_cons]
            exact (scopes_sublist hsel hs).append (ih ho)

/-- The points of a metric, as items. -/
def mitems (m : Metric) : List Item := match m.data with | none => [] | some d => d.points.map fun p => .point d.kind p

theorem metrics_sublist {A : All} : ∀ {ms out : List Metric}, selectMetrics H A ms = some out → (out.flatMap mitems).Sublist (ms.flatMap mitems) := by
  intro ms
  induction ms with
  | nil => intro out h; cases h; exact .slnil
  | cons m ms ih =>
    intro out h
    simp only [selectMetrics] at h
    rw [List.flatMap_cons]
    split at h
    · split at h
      · exact (ih h).trans (List.sublist_append_right _ _)
      · rename_i v hv
        split at h
        · cases h
        · rename_i pts hp
          split at h
          · cases h
          · rename_i o ho
            split at h
            · cases h; exact (ih ho).trans (List.sublist_append_right _ _)
            · cases h
              rw [List.flatMap_cons]
              refine List.Sublist.append ?_ (ih ho)
              have := select_sublist hp
              unfold mitems
              rw [hv]
              cases hk : v.kind <;> simp only [hk] <;> exact this.map _
    · exact (ih h).trans (List.sublist_append_right _ _)

/-- Filtering invents nothing: what it returns are records of the payload, in order, each at most as often. -/
theorem visit_sublist {A : All} {d out : Data} (h : visit H A d = some out) : out.items.Sublist d.items := by
  have flat1 : ∀ {β : Type} (xs : List β) (k : β → Item), xs.flatMap (fun x => [k x]) = xs.map k := by
    intro β xs k; induction xs with
    | nil => rfl
    | cons x xs ih => rw [List.flatMap_cons, ih]; rfl
  cases d with
  | none => cases h; exact .slnil
  | logs rs =>
    simp only [visit] at h
    split at h
    · cases h
    · rename_i o ho
      cases h
      have := resources_sublist (g := fun x => [Item.log x]) (fun xs ys h => by rw [flat1, flat1]; exact (select_sublist h).map _) ho
      simp only [flat1] at this
      exact this
  | traces rs =>
    simp only [visit] at h
    split at h
    · cases h
    · rename_i o ho
      cases h
      have := resources_sublist (g := fun x => [Item.span x]) (fun xs ys h => by rw [flat1, flat1]; exact (select_sublist h).map _) ho
      simp only [flat1] at this
      exact this
  | metrics rs =>
    simp only [visit] at h
    split at h
    · cases h
    · rename_i o ho
      cases h
      exact resources_sublist (g := mitems) (fun xs ys h => metrics_sublist h) ho

end Vs

end Verif
