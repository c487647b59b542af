import Verif.Lemmas.WireExport
/-!
# Exported data: each message
-/
namespace Verif.Ex
open Pb (Val otlp marshal unmarshal encFields Schema Field Fits FieldsOk Ord valuesOf InOrder Utf8)
open Rq (vals entries vals_entries mem_entries getNum getTxt numVal txtVal bits32 int32 getNum_of getTxt_of int32_bits bits32_lt)

theorem map_back {α β : Type} {f : α → β} {g : β → α} {l : List α} (h : ∀ a ∈ l, g (f a) = a) : (l.map f).map g = l := by
  rw [List.map_map]
  conv_rhs => rw [← List.map_id l]
  exact List.map_congr_left h

theorem opt_back {α β : Type} {f : α → β} {g : β → α} {o : Option α} (h : ∀ a, o = some a → g (f a) = a) : ((o.map f).toList).head?.map g = o := by
  cases o with
  | none => rfl
  | some a => simp [h a rfl]

theorem optTxt_of {n : Nat} {o : Option Bytes} {v : Val} (h : vals n v = optVal o) : optTxt n v = o := by
  unfold optTxt optVal at *
  rw [h]
  cases o <;> rfl

/-- The fields with this number are of this kind. -/
def chk (t n : Nat) (c : Pb.Card) (k : Pb.Kind) : Bool := (otlp t).all fun f => f.num ≠ n || (decide (f.card = c) && decide (f.kind = k))

theorem chk_of {t n : Nat} {c : Pb.Card} {k : Pb.Kind} (h : chk t n c k = true) {f : Field} (hf : f ∈ otlp t) (hn : f.num = n) : f.card = c ∧ f.kind = k := by
  unfold chk at h
  rw [List.all_eq_true] at h
  simpa [hn] using h f hf

theorem put_txt {d t n : Nat} {s : Bytes} (hc : chk t n .implicit .string = true) (h : Utf8 s) {f : Field} (hf : f ∈ otlp t) (hn : f.num = n) :
    Good otlp d f (txtVal s) := good_txt (chk_of hc hf hn).1 (chk_of hc hf hn).2 h

theorem put_id {d t n : Nat} {s : Option Bytes} (hc : chk t n .implicit .bytes = true) (h : IdOk s) {f : Field} (hf : f ∈ otlp t) (hn : f.num = n) :
    Good otlp d f (optVal s) := good_id (chk_of hc hf hn).1 (chk_of hc hf hn).2 h

theorem put_num {d t n x : Nat} {k : Pb.Kind} (hc : chk t n .implicit k = true) (h : x < k.range) {f : Field} (hf : f ∈ otlp t) (hn : f.num = n) :
    Good otlp d f (numVal x) := good_num (chk_of hc hf hn).1 (by rw [(chk_of hc hf hn).2]; exact h)

theorem put_msgs {d t n k : Nat} {l : List Val} (hc : chk t n .repeated (.msg k) = true) (h : ∀ v ∈ l, Fits otlp d (.msg k) v) {f : Field} (hf : f ∈ otlp t) (hn : f.num = n) :
    Good otlp d f l := good_msgs (chk_of hc hf hn).1 (chk_of hc hf hn).2 h

theorem put_msg {d t n k : Nat} {c : Pb.Card} {o : Option Val} (hc : chk t n c (.msg k) = true) (hp : c ≠ .packed) (h : ∀ v, o = some v → Fits otlp d (.msg k) v) {f : Field}
    (hf : f ∈ otlp t) (hn : f.num = n) : Good otlp d f o.toList := good_msg (by rw [(chk_of hc hf hn).1]; exact hp) (chk_of hc hf hn).2 h

/-! ## Attributes -/

theorem value_fits {d : Nat} (hd : d + 1 ≤ 10000) {v : AnyValue} (h : ValueOk Short d v) : Fits otlp (d + 1) (.msg 31) (ofValue v) := by
  cases v with
  | str s => exact Pb.ofAny_fits (d + 1) (.str s) h
  | other raw =>
    obtain ⟨fs, u, hr, h1, -, -⟩ := restVal_of hd h
    rw [ofValue, hr]
    exact h1

theorem value_back {d : Nat} (hd : d + 1 ≤ 10000) {v : AnyValue} (h : ValueOk Short d v) : toValue (ofValue v) = v := by
  cases v with
  | str s => rfl
  | other raw =>
    have h' := h
    obtain ⟨fs, u, hr, h1, h2, h3⟩ := restVal_of hd h
    have hv : vals 1 (ofValue (.other raw)) = [] := by
      rw [ofValue, hr, List.eq_nil_iff_forall_not_mem]
      intro v hv
      exact h2 _ (mem_vals.1 hv) (by simp)
    unfold toValue
    rw [hv]
    simp only
    rw [ofValue, hr]
    obtain ⟨b, hb, -⟩ := Pb.C92_writes Pb.otlp_proper (fits_mono _ hd h1)
    rw [hb, Option.getD_some]
    unfold marshal at hb
    simp only at hb
    split at hb
    · rw [h3]; exact congrArg _ (Option.some.inj hb).symm
    · cases hb

theorem kv_fits {d : Nat} (hd : d + 2 ≤ 10000) {kv : KeyValue} (h : AttrOk Short d kv) : Fits otlp (d + 2) (.msg 11) (ofKv kv) := by
  refine fits_build (seen := [1, 2]) hd rfl restOk_nil (by decide) ?_
  intro p hp f hf hn
  simp only [List.mem_cons, List.not_mem_nil, or_false] at hp
  rcases hp with rfl | rfl
  · exact put_txt (n := 1) (by decide) h.1 hf hn
  · refine put_msg (n := 2) (k := 31) (c := .optional) (by decide) (by decide) (fun v hv => ?_) hf hn
    rw [Option.map_eq_some_iff] at hv
    obtain ⟨a, ha, rfl⟩ := hv
    exact value_fits (by omega) (h.2 a ha)

theorem kv_back {d : Nat} (hd : d + 2 ≤ 10000) {kv : KeyValue} (h : AttrOk Short d kv) : toKv (ofKv kv) = kv := by
  obtain ⟨key, value⟩ := kv
  unfold toKv ofKv
  rw [getTxt_of (n := 1) (s := key) (vals_build (by decide) rfl), vals_build (n := 2) (by decide) (vs := (value.map ofValue).toList) rfl,
    opt_back fun a ha => value_back (by omega) (h.2 a ha)]

theorem kvs_fits {d : Nat} (hd : d + 2 ≤ 10000) {l : List KeyValue} (h : ∀ kv ∈ l, AttrOk Short d kv) : ∀ v ∈ l.map ofKv, Fits otlp (d + 2) (.msg 11) v := by
  intro v hv
  obtain ⟨kv, hk, rfl⟩ := List.mem_map.1 hv
  exact kv_fits hd (h kv hk)

theorem kvs_back {d : Nat} (hd : d + 2 ≤ 10000) {l : List KeyValue} (h : ∀ kv ∈ l, AttrOk Short d kv) : (l.map ofKv).map toKv = l :=
  map_back fun kv hk => kv_back hd (h kv hk)

/-! ## Resources and scopes -/

theorem resource_fits {d : Nat} (hd : d + 3 ≤ 10000) {r : Resource} (h : ∀ kv ∈ r.attrs, AttrOk Short d kv) : Fits otlp (d + 3) (.msg 7) (ofResource r) := by
  refine fits_build (seen := [1]) hd rfl restOk_nil (by decide) ?_
  intro p hp f hf hn
  simp only [List.mem_cons, List.not_mem_nil, or_false] at hp
  subst hp
  exact put_msgs (n := 1) (k := 11) (by decide) (kvs_fits (by omega) h) hf hn

theorem resource_back {d : Nat} (hd : d + 3 ≤ 10000) {r : Resource} (h : ∀ kv ∈ r.attrs, AttrOk Short d kv) : toResource (ofResource r) = r := by
  obtain ⟨attrs⟩ := r
  unfold toResource ofResource
  rw [vals_build (n := 1) (by decide) (vs := attrs.map ofKv) rfl, kvs_back (by omega) h]

theorem instr_fits {d : Nat} (hd : d + 3 ≤ 10000) {s : InstrScope} (h : ScopeOk Short d s) : Fits otlp (d + 3) (.msg 12) (ofInstr s) := by
  refine fits_build (seen := [1, 2, 3]) hd rfl restOk_nil (by decide) ?_
  intro p hp f hf hn
  simp only [List.mem_cons, List.not_mem_nil, or_false] at hp
  rcases hp with rfl | rfl | rfl
  · exact put_txt (n := 1) (by decide) h.1 hf hn
  · exact put_txt (n := 2) (by decide) h.2.1 hf hn
  · exact put_msgs (n := 3) (k := 11) (by decide) (kvs_fits (by omega) h.2.2) hf hn

theorem instr_back {d : Nat} (hd : d + 3 ≤ 10000) {s : InstrScope} (h : ScopeOk Short d s) : toInstr (ofInstr s) = s := by
  obtain ⟨name, version, attrs⟩ := s
  unfold toInstr ofInstr
  rw [getTxt_of (n := 1) (s := name) (vals_build (by decide) rfl), getTxt_of (n := 2) (s := version) (vals_build (by decide) rfl),
    vals_build (n := 3) (by decide) (vs := attrs.map ofKv) rfl, kvs_back (by omega) h.2.2]

/-! ## Metrics -/

theorem point_fits {d : Nat} (hd : d + 3 ≤ 10000) (k : MKind) {p : DataPoint} (h : PointOk Short d k p) : Fits otlp (d + 3) (.msg (pointType k).1) (ofPoint k p) := by
  obtain ⟨h1, h2, h3⟩ := h
  refine fits_build (seen := [3, (pointType k).2]) hd rfl h3 (by cases k <;> decide) ?_
  intro q hq f hf hn
  simp only [List.mem_cons, List.not_mem_nil, or_false] at hq
  rcases hq with rfl | rfl
  · exact put_num (n := 3) (k := .fixed64) (by cases k <;> decide) h1 hf hn
  · exact put_msgs (n := (pointType k).2) (k := 11) (by cases k <;> decide) (kvs_fits (by omega) h2) hf hn

theorem point_back {d : Nat} (hd : d + 3 ≤ 10000) (k : MKind) {p : DataPoint} (h : PointOk Short d k p) : toPoint k (ofPoint k p) = p := by
  obtain ⟨ts, attrs, rest⟩ := p
  obtain ⟨h1, h2, h3⟩ := h
  unfold toPoint ofPoint
  rw [getNum_of (n := 3) (k := ts) (vals_build (by cases k <;> decide) rfl), restOf_build (seen := [3, (pointType k).2]) hd rfl h3,
    vals_build (n := (pointType k).2) (by cases k <;> decide) (vs := attrs.map ofKv) (by cases k <;> rfl), kvs_back (by omega) h2]

theorem mdata_fits {d : Nat} (hd : d + 4 ≤ 10000) {m : MData} (h : MDataOk Short d m) : Fits otlp (d + 4) (.msg (dataType m.kind).1) (ofMData m) := by
  refine fits_build (seen := [1, 2, 3]) hd rfl restOk_nil (by cases m.kind <;> decide) ?_
  intro q hq f hf hn
  simp only [List.mem_cons, List.not_mem_nil, or_false] at hq
  rcases hq with rfl | rfl | rfl
  · refine put_msgs (n := 1) (k := (pointType m.kind).1) (by cases m.kind <;> decide) (fun v hv => ?_) hf hn
    obtain ⟨p, hp, rfl⟩ := List.mem_map.1 hv
    exact point_fits (by omega) m.kind (h.points p hp)
  · exact put_num (n := 2) (k := .enum) (by cases m.kind <;> decide) (bits32_lt _) hf hn
  · exact put_num (n := 3) (k := .bool) (by cases m.kind <;> decide) (by cases m.monotonic <;> decide) hf hn

theorem mdata_back {d : Nat} (hd : d + 4 ≤ 10000) {m : MData} (h : MDataOk Short d m) : toMData m.kind (ofMData m) = m := by
  obtain ⟨k, temporality, monotonic, points⟩ := m
  have hp : (points.map (ofPoint k)).map (toPoint k) = points := map_back fun p hp => point_back (by omega) k (h.points p hp)
  unfold toMData ofMData
  simp only
  rw [vals_build (n := 1) (by cases k <;> decide) (vs := points.map (ofPoint k)) rfl, hp]
  have ht : (if k = .gauge ∨ k = .summary then 0 else int32 (getNum 2 (build (dataType k).1 [(1, points.map (ofPoint k)), (2, numVal (bits32 temporality)),
      (3, numVal (if monotonic then 1 else 0))]))) = temporality := by
    by_cases hk : k = .gauge ∨ k = .summary
    · rw [if_pos hk]; exact (h.plain hk).symm
    · rw [if_neg hk, getNum_of (n := 2) (k := bits32 temporality) (vals_build (by cases k <;> first | decide | exact absurd hk (by decide)) rfl), int32_bits h.temporality]
  have hm : (if k = .sum then decide (getNum 3 (build (dataType k).1 [(1, points.map (ofPoint k)), (2, numVal (bits32 temporality)),
      (3, numVal (if monotonic then 1 else 0))]) ≠ 0) else false) = monotonic := by
    by_cases hk : k = .sum
    · rw [if_pos hk]
      subst hk
      rw [getNum_of (n := 3) (k := if monotonic then 1 else 0) (vals_build (by decide) rfl)]
      cases monotonic <;> rfl
    · rw [if_neg hk]
      cases hx : monotonic with
      | false => rfl
      | true => exact absurd (h.monotonic hx) hk
  rw [ht, hm]

end Verif.Ex
