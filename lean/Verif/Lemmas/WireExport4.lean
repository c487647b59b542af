import Verif.Lemmas.WireExport3
import Verif.Lemmas.WireWeight
/-!
# Exported data: what arrives is data that a client can export
-/
namespace Verif.Ex
open Pb (Val otlp marshal unmarshal encFields Schema Field Fits FieldsOk Ord valuesOf InOrder Utf8)
open Rq (vals entries vals_entries mem_entries getNum getTxt numVal txtVal bits32 int32 getNum_of getTxt_of int32_bits bits32_lt)

theorem fits_isMsg {d t : Nat} {v : Val} (h : Fits otlp d (.msg t) v) : ∃ fs u e, d = e + 1 ∧ v = .msg fs u ∧ FieldsOk otlp e t fs ∧ Pb.Unknown otlp t u := by
  cases v with
  | msg fs u =>
    cases d with
    | zero => simp [Fits] at h
    | succ e =>
      rw [Pb.fits_msg] at h
      exact ⟨fs, u, e, rfl, rfl, h.1, h.2⟩
  | nums l => exact absurd rfl ((not_nums h).1 l)
  | num n => exact absurd (show n < 0 from by cases d <;> exact h) (by omega)
  | bytes s => cases d <;> exact absurd h (by simp [Fits])

/-- The values of a field of an accepted message. -/
theorem fits_vals {d t n : Nat} {c : Pb.Card} {k : Pb.Kind} (hc : chk t n c k = true) {v w : Val} (h : Fits otlp (d + 1) (.msg t) v) (hw : w ∈ vals n v) :
    Fits otlp d k w ∧ (c = .implicit → ¬ w.Zero) := by
  obtain ⟨fs, u, e, he, rfl, h1, -⟩ := fits_isMsg h
  obtain rfl : d = e := by omega
  obtain ⟨f, hf, hn, ht, h2⟩ := h1.1 _ ((mem_vals (u := u)).1 hw)
  obtain ⟨c1, c2⟩ := chk_of hc hf hn
  rw [c2] at h2
  exact ⟨h2, fun hi => ht.2 (c1.trans hi)⟩

theorem txt_ok {d t n : Nat} (hc : chk t n .implicit .string = true) {v : Val} (h : Fits otlp (d + 1) (.msg t) v) : Utf8 (getTxt n v) := by
  unfold getTxt
  cases hv : vals n v with
  | nil => exact ⟨[], rfl⟩
  | cons w l =>
    have := (fits_vals hc h (by rw [hv]; exact List.mem_cons_self)).1
    cases w with
    | bytes s => cases d <;> exact this
    | _ => exact ⟨[], rfl⟩

theorem num_ok {d t n : Nat} {k : Pb.Kind} (hc : chk t n .implicit k = true) (hk : 0 < k.range) {v : Val} (h : Fits otlp (d + 1) (.msg t) v) : getNum n v < k.range := by
  unfold getNum
  cases hv : vals n v with
  | nil => exact hk
  | cons w l =>
    have := (fits_vals hc h (by rw [hv]; exact List.mem_cons_self)).1
    cases w with
    | num x => cases d <;> exact this
    | _ => exact hk

theorem id_ok {d t n : Nat} (hc : chk t n .implicit .bytes = true) {v : Val} (h : Fits otlp (d + 1) (.msg t) v) : IdOk (optTxt n v) := by
  unfold optTxt IdOk
  cases hv : vals n v with
  | nil => simp
  | cons w l =>
    have := (fits_vals hc h (by rw [hv]; exact List.mem_cons_self)).2 rfl
    cases w with
    | bytes s =>
      simp only [ne_eq, Option.some.injEq]
      intro e
      exact this e
    | _ => simp

/-- `P` is handed down to the values of fields, and what is carried along is `short`. -/
structure Hered (P : Val → Prop) (short : Bytes → Prop) : Prop where
  sub : ∀ {n : Nat} {v w : Val}, P v → w ∈ vals n v → P w
  short : ∀ {d t : Nat} {fs : List (Nat × Val)} {u : Bytes} (q : Nat × Val → Bool), FieldsOk otlp d t fs → P (.msg fs u) → short (encFields otlp t (fs.filter q) ++ u)

variable {P : Val → Prop} {short : Bytes → Prop} (hP : Hered P short)
include hP

theorem rest_ok {d t : Nat} (hd : d ≤ 10000) (seen : List Nat) {v : Val} (h : Fits otlp d (.msg t) v) (hp : P v) : RestOk short d t seen (restOf t seen v) := by
  obtain ⟨fs, u, e, rfl, rfl, h1, h2⟩ := fits_isMsg h
  have hf : Fits otlp (e + 1) (.msg t) (.msg (fs.filter fun x => !seen.contains x.1) u) := by
    rw [Pb.fits_msg]
    exact ⟨⟨fun x hx => h1.1 x (List.mem_filter.1 hx).1, List.Pairwise.filter _ h1.2⟩, h2⟩
  refine ⟨_, u, hf, ?_, hP.short _ h1 hp, fun x hx => by simpa using (List.mem_filter.1 hx).2⟩
  obtain ⟨b, hb, -⟩ := Pb.C92_writes Pb.otlp_proper (fits_mono _ hd hf)
  rw [hb]
  unfold marshal at hb
  simp only at hb
  split at hb
  · exact hb.symm
  · cases hb

theorem value_ok {d : Nat} (hd : d + 1 ≤ 10000) {v : Val} (h : Fits otlp (d + 1) (.msg 31) v) (hp : P v) : ValueOk short d (toValue v) := by
  obtain ⟨fs, u, e, he, rfl, h1, h2⟩ := fits_isMsg h
  obtain rfl : d = e := by omega
  obtain ⟨b, hb, -⟩ := Pb.C92_writes Pb.otlp_proper (fits_mono _ hd h)
  have all : ∀ w ∈ vals 1 (.msg fs u), ∃ s, w = .bytes s ∧ Utf8 s := by
    intro w hw
    have := (fits_vals (n := 1) (c := .oneof 0) (k := .string) (by decide) h hw).1
    cases w with
    | bytes s => exact ⟨s, rfl, by cases d <;> exact this⟩
    | num x => exact absurd (show x < 0 from by cases d <;> exact this) (by omega)
    | nums l =>
      have h : l ≠ [] ∧ ∀ n ∈ l, n < 0 := by cases d <;> exact this
      cases l with
      | nil => exact absurd rfl h.1
      | cons n l => exact absurd (h.2 n List.mem_cons_self) (by omega)
    | msg _ _ => cases d <;> exact absurd this (by simp [Fits])
  unfold toValue
  cases hv : vals 1 (.msg fs u) with
  | nil =>
    simp only
    have hs : marshal otlp 31 (.msg fs u) = some (encFields otlp 31 fs ++ u) := by
      rw [hb]
      unfold marshal at hb
      simp only at hb
      split at hb
      · exact hb.symm
      · cases hb
    have hsh := hP.short (fun _ => true) h1 hp
    rw [List.filter_true] at hsh
    refine ⟨fs, u, h, by rw [hb]; rfl, by rw [hs]; exact hsh, fun x hx hs => ?_⟩
    have : x.1 = 1 := by simpa using hs
    have hm : x.2 ∈ vals 1 (.msg fs u) := mem_vals.2 (by rw [← this]; exact hx)
    rw [hv] at hm
    cases hm
  | cons w l =>
    obtain ⟨s, rfl, hs⟩ := all w (by rw [hv]; exact List.mem_cons_self)
    exact hs

omit hP in
theorem head_mem {l : List Val} {β : Type} {f : Val → β} {b : β} (h : l.head?.map f = some b) : ∃ w ∈ l, f w = b := by
  cases l with
  | nil => cases h
  | cons w l => exact ⟨w, List.mem_cons_self, Option.some.inj h⟩

theorem kv_ok {d : Nat} (hd : d + 2 ≤ 10000) {v : Val} (h : Fits otlp (d + 2) (.msg 11) v) (hp : P v) : AttrOk short d (toKv v) := by
  refine ⟨txt_ok (n := 1) (by decide) h, fun x hx => ?_⟩
  obtain ⟨w, hw, rfl⟩ := head_mem hx
  exact value_ok hP (by omega) (fits_vals (n := 2) (c := .optional) (k := .msg 31) (by decide) h hw).1 (hP.sub hp hw)

theorem kvs_ok {d t n : Nat} (hc : chk t n .repeated (.msg 11) = true) (hd : d + 2 ≤ 10000) {v : Val} (h : Fits otlp (d + 3) (.msg t) v) (hp : P v) :
    ∀ kv ∈ (vals n v).map toKv, AttrOk short d kv := by
  intro kv hk
  obtain ⟨w, hw, rfl⟩ := List.mem_map.1 hk
  exact kv_ok hP hd (fits_vals hc h hw).1 (hP.sub hp hw)

theorem instr_ok {d : Nat} (hd : d + 3 ≤ 10000) {v : Val} (h : Fits otlp (d + 3) (.msg 12) v) (hp : P v) : ScopeOk short d (toInstr v) :=
  ⟨txt_ok (n := 1) (by decide) h, txt_ok (n := 2) (by decide) h, kvs_ok hP (n := 3) (by decide) (by omega) h hp⟩

theorem point_ok {d : Nat} (hd : d + 3 ≤ 10000) (k : MKind) {v : Val} (h : Fits otlp (d + 3) (.msg (pointType k).1) v) (hp : P v) : PointOk short d k (toPoint k v) :=
  ⟨num_ok (n := 3) (k := .fixed64) (by cases k <;> decide) (by decide) h, kvs_ok hP (n := (pointType k).2) (by cases k <;> decide) (by omega) h hp, rest_ok hP hd _ h hp⟩

omit hP in
theorem int32_range {x : Nat} (h : x < 2 ^ 32) : -2 ^ 31 ≤ int32 x ∧ int32 x < 2 ^ 31 := by
  unfold int32
  split <;> omega

theorem mdata_ok {d : Nat} (hd : d + 4 ≤ 10000) (k : MKind) {v : Val} (h : Fits otlp (d + 4) (.msg (dataType k).1) v) (hp : P v) : MDataOk short d (toMData k v) where
  temporality := by
    unfold toMData
    simp only
    split
    · omega
    · have : getNum 2 v < 2 ^ 32 := num_ok (n := 2) (k := .enum) (by cases k <;> decide) (by decide) h
      exact int32_range this
  plain := fun hk => if_pos hk
  monotonic := by
    unfold toMData
    simp only
    split
    · rename_i hk; exact fun _ => hk
    · intro h; cases h
  points := by
    intro p hm
    obtain ⟨w, hw, rfl⟩ := List.mem_map.1 hm
    exact point_ok hP (by omega) k (fits_vals (n := 1) (c := .repeated) (k := .msg (pointType k).1) (by cases k <;> decide) h hw).1 (hP.sub hp hw)

theorem metric_ok {d : Nat} (hd : d + 5 ≤ 10000) {v : Val} (h : Fits otlp (d + 5) (.msg 13) v) (hp : P v) : MetricOk short d (toMetric v) := by
  refine ⟨txt_ok (n := 1) (by decide) h, rest_ok hP hd _ h hp, fun x hx => ?_⟩
  have hm := List.mem_of_head? hx
  obtain ⟨k, -, hk⟩ := List.mem_flatMap.1 hm
  obtain ⟨w, hw, rfl⟩ := List.mem_map.1 hk
  exact mdata_ok hP (by omega) k (fits_vals (n := (dataType k).2) (c := .oneof 0) (k := .msg (dataType k).1) (by cases k <;> decide) h hw).1 (hP.sub hp hw)

theorem log_ok {d : Nat} (hd : d + 3 ≤ 10000) {v : Val} (h : Fits otlp (d + 3) (.msg 14) v) (hp : P v) : LogOk short d (toLog v) where
  ts := num_ok (n := 1) (k := .fixed64) (by decide) (by decide) h
  severity := txt_ok (n := 3) (by decide) h
  attrs := kvs_ok hP (n := 6) (by decide) (by omega) h hp
  traceId := id_ok (n := 9) (by decide) h
  spanId := id_ok (n := 10) (by decide) h
  rest := rest_ok hP hd _ h hp

theorem span_ok {d : Nat} (hd : d + 3 ≤ 10000) {v : Val} (h : Fits otlp (d + 3) (.msg 15) v) (hp : P v) : SpanOk short d (toSpan v) where
  name := txt_ok (n := 5) (by decide) h
  traceId := id_ok (n := 1) (by decide) h
  spanId := id_ok (n := 2) (by decide) h
  parentSpanId := id_ok (n := 4) (by decide) h
  start := num_ok (n := 7) (k := .fixed64) (by decide) (by decide) h
  stop := num_ok (n := 8) (k := .fixed64) (by decide) (by decide) h
  attrs := kvs_ok hP (n := 9) (by decide) (by omega) h hp
  rest := rest_ok hP hd _ h hp

variable {α : Type}

omit hP in
theorem types_of {t i : Nat} (ht : (t, i) ∈ scopeTypes) : t = 8 ∧ i = 13 ∨ t = 9 ∧ i = 14 ∨ t = 10 ∧ i = 15 := by simpa [scopeTypes] using ht

theorem scope_ok {d t i : Nat} (ht : (t, i) ∈ scopeTypes) (hd : d + 4 ≤ 10000) {ok : α → Prop} {item : Val → α} (hi : ∀ w, Fits otlp (d + 3) (.msg i) w → P w → ok (item w))
    {v : Val} (h : Fits otlp (d + 4) (.msg t) v) (hp : P v) : ScopesOk short d ok (toScopeG item v) := by
  have ht' := types_of ht
  refine ⟨txt_ok (n := 3) (by rcases ht' with ⟨rfl, -⟩ | ⟨rfl, -⟩ | ⟨rfl, -⟩ <;> decide) h, fun x hx => ?_, fun x hx => ?_⟩
  · obtain ⟨w, hw, rfl⟩ := head_mem hx
    exact instr_ok hP (by omega) (fits_vals (n := 1) (c := .optional) (k := .msg 12) (by rcases ht' with ⟨rfl, -⟩ | ⟨rfl, -⟩ | ⟨rfl, -⟩ <;> decide) h hw).1 (hP.sub hp hw)
  · obtain ⟨w, hw, rfl⟩ := List.mem_map.1 hx
    exact hi w (fits_vals (n := 2) (c := .repeated) (k := .msg i) (by rcases ht' with ⟨rfl, rfl⟩ | ⟨rfl, rfl⟩ | ⟨rfl, rfl⟩ <;> decide) h hw).1 (hP.sub hp hw)

theorem res_ok {d t i : Nat} (ht : (t, i) ∈ scopeTypes) (hd : d + 5 ≤ 10000) {ok : α → Prop} {item : Val → α} (hi : ∀ w, Fits otlp (d + 3) (.msg i) w → P w → ok (item w))
    {v : Val} (h : Fits otlp (d + 5) (.msg (t - 4)) v) (hp : P v) : ResourceOk short d ok (toResourceG item v) := by
  have ht' := types_of ht
  refine ⟨txt_ok (n := 3) (by rcases ht' with ⟨rfl, -⟩ | ⟨rfl, -⟩ | ⟨rfl, -⟩ <;> decide) h, fun x hx => ?_, fun x hx => ?_⟩
  · obtain ⟨w, hw, rfl⟩ := head_mem hx
    exact kvs_ok hP (t := 7) (n := 1) (by decide) (by omega)
      (fits_vals (n := 1) (c := .optional) (k := .msg 7) (by rcases ht' with ⟨rfl, -⟩ | ⟨rfl, -⟩ | ⟨rfl, -⟩ <;> decide) h hw).1 (hP.sub hp hw)
  · obtain ⟨w, hw, rfl⟩ := List.mem_map.1 hx
    exact scope_ok hP ht (by omega) hi (fits_vals (n := 2) (c := .repeated) (k := .msg t) (by rcases ht' with ⟨rfl, -⟩ | ⟨rfl, -⟩ | ⟨rfl, -⟩ <;> decide) h hw).1 (hP.sub hp hw)

theorem req_ok {d t i : Nat} (ht : (t, i) ∈ scopeTypes) (hd : d + 6 ≤ 10000) {ok : α → Prop} {item : Val → α} (hi : ∀ w, Fits otlp (d + 3) (.msg i) w → P w → ok (item w))
    {v : Val} (h : Fits otlp (d + 6) (.msg (t - 7)) v) (hp : P v) : ∀ r ∈ (vals 1 v).map (toResourceG item), ResourceOk short d ok r := by
  have ht' := types_of ht
  intro r hr
  obtain ⟨w, hw, rfl⟩ := List.mem_map.1 hr
  exact res_ok hP ht (by omega) hi (fits_vals (n := 1) (c := .repeated) (k := .msg (t - 4)) (by rcases ht' with ⟨rfl, -⟩ | ⟨rfl, -⟩ | ⟨rfl, -⟩ <;> decide) h hw).1 (hP.sub hp hw)

omit hP in
/-- What is written in less than `2 ^ 64` bytes. -/
theorem light : Hered (fun v => Pb.weight v < 2 ^ 64) Short where
  sub := by
    intro n v w hv hw
    cases v with
    | msg fs u =>
      have := Pb.fweight_mem ((mem_vals (u := u)).1 hw)
      simp only [Pb.weight] at hv this
      omega
    | _ => cases hw
  short := by
    intro d t fs u q h hw
    simp only [Pb.weight] at hw
    have h1 := Pb.fweight_filter q fs
    have h2 := Pb.encFields_length Pb.otlp_proper (Pb.filter_ok q h) (by omega)
    unfold Short
    rw [List.length_append]
    omega

end Verif.Ex
