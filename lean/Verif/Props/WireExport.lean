import Verif.Lemmas.WireExport4
/-!
# C97: data exported over the network
-/
namespace Verif.Ex
open Pb (Val otlp marshal unmarshal encFields encVal Schema Field Fits FieldsOk Ord valuesOf InOrder Utf8 varint)
open Rq (vals entries getNum getTxt numVal txtVal)

/-! ## What a client sends arrives -/

theorem received_of {k : Nat} {b : Bytes} {v : Val} (hl : b.length ≤ 2 ^ 22) (h : unmarshal otlp k b = some v) : received k b = some (toData (.msg [(k, .msg (fieldsOf v) [])] [])) := by
  unfold received exported
  rw [h, if_neg (by unfold Rq.recvLimit; omega)]
  rfl

theorem fits_some {d t : Nat} {v : Val} (h : Fits otlp d (.msg t) v) : ∃ fs u, v = .msg fs u := by
  obtain ⟨fs, u, -, -, rfl, -⟩ := fits_isMsg h
  exact ⟨fs, u, rfl⟩

/-- **C97**: data is exported. The client can write the request, and what the server hands to the storage is the data, unless the request has more than 4 MiB:
then it is refused. -/
theorem C97_arrives {d : Data} (h : DataOk Short d) {k : Nat} {v : Val} (hv : ofData d = some (k, v)) :
    ∃ b, marshal otlp k v = some b ∧ (b.length ≤ 2 ^ 22 → received k b = some d) ∧ (2 ^ 22 < b.length → received k b = none) := by
  have main : Fits otlp 10000 (.msg k) v → toData (.msg [(k, .msg (fieldsOf v) [])] []) = d → ∃ b, marshal otlp k v = some b ∧ (b.length ≤ 2 ^ 22 → received k b = some d) ∧
      (2 ^ 22 < b.length → received k b = none) := by
    intro hf ht
    obtain ⟨b, hb, -⟩ := Pb.C92_writes Pb.otlp_proper hf
    refine ⟨b, hb, fun hl => ?_, fun hl => ?_⟩
    · rw [received_of hl (Pb.C92_round_trip Pb.otlp_proper hf hb (by omega)), ht]
    · unfold received exported
      rw [if_pos (by unfold Rq.recvLimit; omega)]
      rfl
  cases d with
  | none => cases hv
  | metrics rs =>
    obtain ⟨rfl, rfl⟩ := Prod.mk.inj (Option.some.inj hv)
    have hf := req_fits (k := 1) (t := 8) (i := 13) (d := 9994) (by decide) rfl (by decide) (fun x hx => metric_fits (d := 9992) (by decide) hx) h
    refine main hf ?_
    have hb := req_back (k := 1) (t := 8) (i := 13) (d := 9994) (by decide) rfl (by decide) (fun x hx => metric_back (d := 9992) (by decide) hx) h
    rw [← vals_fieldsOf 1 _ [] (fits_some hf)] at hb
    exact congrArg Data.metrics hb
  | logs rs =>
    obtain ⟨rfl, rfl⟩ := Prod.mk.inj (Option.some.inj hv)
    have hf := req_fits (k := 2) (t := 9) (i := 14) (d := 9994) (by decide) rfl (by decide) (fun x hx => log_fits (d := 9994) (by decide) hx) h
    refine main hf ?_
    have hb := req_back (k := 2) (t := 9) (i := 14) (d := 9994) (by decide) rfl (by decide) (fun x hx => log_back (d := 9994) (by decide) hx) h
    rw [← vals_fieldsOf 1 _ [] (fits_some hf)] at hb
    exact congrArg Data.logs hb
  | traces rs =>
    obtain ⟨rfl, rfl⟩ := Prod.mk.inj (Option.some.inj hv)
    have hf := req_fits (k := 3) (t := 10) (i := 15) (d := 9994) (by decide) rfl (by decide) (fun x hx => span_fits (d := 9994) (by decide) hx) h
    refine main hf ?_
    have hb := req_back (k := 3) (t := 10) (i := 15) (d := 9994) (by decide) rfl (by decide) (fun x hx => span_back (d := 9994) (by decide) hx) h
    rw [← vals_fieldsOf 1 _ [] (fits_some hf)] at hb
    exact congrArg Data.traces hb

/-! ## Whatever is sent -/

/-- Which data the three calls get. -/
def Data.Is (k : Nat) : Data → Prop
  | .metrics _ => k = 1
  | .logs _ => k = 2
  | .traces _ => k = 3
  | .none => False

/-- **C97**: whatever bytes are sent, what the server hands to the storage (if it accepts them) is data of the kind of the call that a client can export: its
strings are UTF-8, its times have 64 bits, ids that are there are not empty, gauges and summaries have no temporality. -/
theorem C97_any {k : Nat} (hk : k = 1 ∨ k = 2 ∨ k = 3) {b : Bytes} {d : Data} (h : received k b = some d) : DataOk Short d ∧ Data.Is k d := by
  unfold received exported at h
  split at h
  · cases h
  rename_i hl
  rw [Option.map_map, Option.map_eq_some_iff] at h
  obtain ⟨v, hv, rfl⟩ := h
  have hf := (Pb.C93_accepted Pb.otlp_proper hv).1
  have hm := fits_some hf
  have hw : Pb.weight v < 2 ^ 64 := by
    have := Pb.unmarshal_weight hv
    unfold Rq.recvLimit at hl
    omega
  rcases hk with rfl | rfl | rfl
  · refine ⟨?_, rfl⟩
    have := req_ok light (t := 8) (i := 13) (d := 9994) (by decide) (by decide) (fun w hw hp => metric_ok light (d := 9992) (by decide) hw hp) hf hw
    rw [← vals_fieldsOf 1 _ [] hm] at this
    exact this
  · refine ⟨?_, rfl⟩
    have := req_ok light (t := 9) (i := 14) (d := 9994) (by decide) (by decide) (fun w hw hp => log_ok light (d := 9994) (by decide) hw hp) hf hw
    rw [← vals_fieldsOf 1 _ [] hm] at this
    exact this
  · refine ⟨?_, rfl⟩
    have := req_ok light (t := 10) (i := 15) (d := 9994) (by decide) (by decide) (fun w hw hp => span_ok light (d := 9994) (by decide) hw hp) hf hw
    rw [← vals_fieldsOf 1 _ [] hm] at this
    exact this

/-! ## Sending it back -/

theorem writes_any {d t : Nat} {v : Val} (h : Fits otlp d (.msg t) v) : ∃ b, marshal otlp t v = some b := by
  obtain ⟨fs, u, rfl⟩ := fits_some h
  cases he : marshal otlp t (.msg fs u) with
  | none =>
    obtain ⟨s, h1, h2⟩ := (Pb.C92_fails Pb.otlp_proper t fs u).1 he
    exact absurd (Pb.fits_strings Pb.otlp_proper h h1) h2
  | some b => exact ⟨b, rfl⟩

theorem wrap_fits {d k : Nat} (hk : k = 1 ∨ k = 2 ∨ k = 3) {fs : List (Nat × Val)} {u : Bytes} (h : Fits otlp d (.msg k) (.msg fs u)) :
    Fits otlp (d + 1) (.msg 0) (.msg [(k, .msg fs [])] []) := by
  have hm : Fits otlp d (.msg k) (.msg fs []) := by
    obtain ⟨fs', u', e, rfl, hv, h1, -⟩ := fits_isMsg h
    obtain ⟨rfl, rfl⟩ := Val.msg.inj hv
    exact Pb.fits_msg.2 ⟨h1, .nil⟩
  rw [Pb.fits_msg]
  refine ⟨⟨fun e he => ?_, List.pairwise_singleton _ _⟩, .nil⟩
  obtain rfl := List.mem_singleton.1 he
  refine ⟨{ num := k, kind := .msg k, card := .oneof 0 }, by rcases hk with rfl | rfl | rfl <;> decide, rfl, ⟨⟨(fun e => by cases e), fun ⟨l, e⟩ => (by cases e)⟩, (fun e => by cases e)⟩, hm⟩

theorem unwrap_fits {d k : Nat} (hk : k = 1 ∨ k = 2 ∨ k = 3) {fs : List (Nat × Val)} (h : Fits otlp (d + 1) (.msg 0) (.msg [(k, .msg fs [])] [])) :
    Fits otlp d (.msg k) (.msg fs []) :=
  (fits_vals (n := k) (c := .oneof 0) (k := .msg k) (by rcases hk with rfl | rfl | rfl <;> decide) h (mem_vals.2 (List.mem_singleton.2 rfl))).1

/-- **C97**: what is accepted can be sent to a client, as the answer to a scan, and the client reads it as it was exactly if the request was nested less than 10000 messages deep
(the data is one message more than the request). -/
theorem C97_sent_back {k : Nat} (hk : k = 1 ∨ k = 2 ∨ k = 3) {b : Bytes} {fs : List (Nat × Val)} {u : Bytes} (hs : b.length ≤ 2 ^ 22)
    (h : unmarshal otlp k b = some (.msg fs u)) : exported k b = some (.msg [(k, .msg fs [])] []) ∧ ∃ w, marshal otlp 0 (.msg [(k, .msg fs [])] []) = some w ∧
      (unmarshal otlp 0 w = some (.msg [(k, .msg fs [])] []) ↔ Fits otlp 9999 (.msg k) (.msg fs [])) := by
  refine ⟨by unfold exported; rw [h, if_neg (by unfold Rq.recvLimit; omega)]; rfl, ?_⟩
  have hf0 := wrap_fits hk (Pb.C93_accepted Pb.otlp_proper h).1
  obtain ⟨w, hw⟩ := writes_any hf0
  have hl : w.length < 2 ^ 64 := by
    have h1 := Pb.unmarshal_weight h
    rw [Pb.weight] at h1
    have h2 : Pb.fweight [(k, .msg fs [])] = 10 + (10 + (Pb.fweight fs + 0)) + 0 := by rw [Pb.fweight_cons, Pb.weight, Pb.fweight]; rfl
    have h3 := Pb.encFields_length Pb.otlp_proper (Pb.fits_msg.1 hf0).1 (by omega)
    unfold marshal at hw
    simp only at hw
    split at hw
    · cases hw
      rw [List.length_append, List.length_nil]
      omega
    · cases hw
  refine ⟨w, hw, ⟨fun hu => unwrap_fits hk (Pb.C93_accepted Pb.otlp_proper hu).1, fun hf => ?_⟩⟩
  exact Pb.C92_round_trip Pb.otlp_proper (wrap_fits hk hf) hw hl

/-! ### A request at the limit -/

/-- Lists in lists, `n` deep. -/
def arr : Nat → Val
  | 0 => .msg [] []
  | n + 1 => .msg [(5, .msg [(1, arr n)] [])] []

/-- Spans, of which one has such a value as an attribute. -/
def deep (n : Nat) : Val := .msg [(1, .msg [(2, .msg [(2, .msg [(9, .msg [(2, arr n)] [])] [])] [])] [])] []

/-- One field that is a message. -/
theorem one_fits {d t n k : Nat} {f : Field} (hf : f ∈ otlp t) (hn : f.num = n) (hc : f.card ≠ .packed) (hk : f.kind = .msg k) {v : Val} :
    Fits otlp (d + 1) (.msg t) (.msg [(n, v)] []) ↔ Fits otlp d (.msg k) v := by
  rw [Pb.fits_msg]
  constructor
  · rintro ⟨⟨h, -⟩, -⟩
    obtain ⟨g, hg, hn', -, h2⟩ := h (n, v) List.mem_cons_self
    obtain rfl := Pb.same_field Pb.otlp_proper hg hf (hn'.trans hn.symm)
    rw [hk] at h2
    exact h2
  · intro h
    refine ⟨⟨fun e he => ?_, List.pairwise_singleton _ _⟩, .nil⟩
    obtain rfl := List.mem_singleton.1 he
    obtain ⟨h1, h2⟩ := (good_msg (S := otlp) (d := d) (o := some v) hc hk (fun w hw => by cases hw; exact h)).2 v (by simp)
    exact ⟨f, hf, hn, h1, h2⟩

theorem arr_fits (n d : Nat) : Fits otlp d (.msg 31) (arr n) ↔ 2 * n + 1 ≤ d := by
  induction n generalizing d with
  | zero =>
    cases d with
    | zero => simp [arr, Fits]
    | succ d =>
      simp only [arr]
      rw [Pb.fits_msg]
      simp only [Nat.mul_zero, Nat.zero_add, Nat.le_add_left, iff_true]
      exact ⟨⟨nofun, .nil⟩, .nil⟩
  | succ n ih =>
    cases d with
    | zero => simp [arr, Fits]
    | succ d =>
      rw [arr, one_fits (t := 31) (n := 5) (f := Pb.alt 5 (.msg 32)) (k := 32) (by decide) rfl (by decide) rfl]
      cases d with
      | zero => simp [Fits]
      | succ d =>
        rw [one_fits (t := 32) (n := 1) (f := Pb.rep 1 (.msg 31)) (k := 31) (by decide) rfl (by decide) rfl, ih]
        omega

theorem deep_fits (n d : Nat) : Fits otlp (d + 5) (.msg 3) (deep n) ↔ 2 * n + 1 ≤ d := by
  rw [deep, one_fits (t := 3) (n := 1) (f := Pb.rep 1 (.msg 6)) (k := 6) (by decide) rfl (by decide) rfl, one_fits (t := 6) (n := 2) (f := Pb.rep 2 (.msg 10)) (k := 10) (by decide) rfl (by decide) rfl,
    one_fits (t := 10) (n := 2) (f := Pb.rep 2 (.msg 15)) (k := 15) (by decide) rfl (by decide) rfl, one_fits (t := 15) (n := 9) (f := Pb.rep 9 (.msg 11)) (k := 11) (by decide) rfl (by decide) rfl,
    one_fits (t := 11) (n := 2) (f := Pb.opt 2 (.msg 31)) (k := 31) (by decide) rfl (by decide) rfl, arr_fits]

/-- One field that is a message, as it is written: a tag of one byte, the length, and the message. -/
theorem one_length {t n k : Nat} {f : Field} (hf : otlp.field t n = some f) (hk : f.kind = .msg k) (hw : n * 8 + f.wireType < 128) {fs : List (Nat × Val)}
    (hl : (encFields otlp k fs).length < 2 ^ 64) : (encFields otlp t [(n, .msg fs [])]).length ≤ 11 + (encFields otlp k fs).length := by
  have hv : (varint (encFields otlp k fs).length).length ≤ 9 + 1 :=
    Pb.varint_length 9 _ (Nat.lt_of_lt_of_le hl (by decide))
  have ht : (varint (n * 8 + f.wireType)).length ≤ 0 + 1 := Pb.varint_length 0 _ hw
  have he : encFields otlp t [(n, .msg fs [])] = (varint (n * 8 + f.wireType) ++ encVal otlp f.kind (.msg fs [])) ++ [] := by
    rw [encFields, hf]; rfl
  have hm : encVal otlp f.kind (.msg fs []) = varint (encFields otlp k fs ++ []).length ++ (encFields otlp k fs ++ []) := by
    rw [hk, encVal]; rfl
  rw [he, hm, List.append_nil, List.append_nil, List.length_append, List.length_append]
  omega

/-- What is below the first message. -/
def arrFields : Nat → List (Nat × Val)
  | 0 => []
  | n + 1 => [(5, .msg [(1, .msg (arrFields n) [])] [])]

theorem arr_eq (n : Nat) : arr n = .msg (arrFields n) [] := by
  induction n with
  | zero => rfl
  | succ n ih => rw [arr, ih]; rfl

theorem arr_length (n : Nat) (hn : n ≤ 10000) : (encFields otlp 31 (arrFields n)).length ≤ 22 * n := by
  induction n with
  | zero => decide
  | succ n ih =>
    have h := ih (by omega)
    have h1 := one_length (t := 32) (n := 1) (k := 31) (f := Pb.rep 1 (.msg 31)) rfl rfl (by decide) (fs := arrFields n) (by omega)
    have h2 := one_length (t := 31) (n := 5) (k := 32) (f := Pb.alt 5 (.msg 32)) rfl rfl (by decide) (fs := [(1, .msg (arrFields n) [])]) (by omega)
    rw [arrFields]
    omega

/-- What is in a request of this depth. -/
def deepFields (n : Nat) : List (Nat × Val) := [(1, .msg [(2, .msg [(2, .msg [(9, .msg [(2, .msg (arrFields n) [])] [])] [])] [])] [])]

theorem deep_eq (n : Nat) : deep n = .msg (deepFields n) [] := by rw [deep, arr_eq]; rfl

theorem deep_length (n : Nat) (hn : n ≤ 10000) : (encFields otlp 3 (deepFields n)).length ≤ 22 * n + 55 := by
  have h := arr_length n hn
  have h1 := one_length (t := 11) (n := 2) (k := 31) (f := Pb.opt 2 (.msg 31)) rfl rfl (by decide) (fs := arrFields n) (by omega)
  generalize hg1 : encFields otlp 11 [(2, .msg (arrFields n) [])] = g1 at h1
  have h2 := one_length (t := 15) (n := 9) (k := 11) (f := Pb.rep 9 (.msg 11)) rfl rfl (by decide) (fs := [(2, .msg (arrFields n) [])]) (by rw [hg1]; omega)
  rw [hg1] at h2
  generalize hg2 : encFields otlp 15 [(9, .msg [(2, .msg (arrFields n) [])] [])] = g2 at h2
  have h3 := one_length (t := 10) (n := 2) (k := 15) (f := Pb.rep 2 (.msg 15)) rfl rfl (by decide) (fs := [(9, .msg [(2, .msg (arrFields n) [])] [])]) (by rw [hg2]; omega)
  rw [hg2] at h3
  generalize hg3 : encFields otlp 10 [(2, .msg [(9, .msg [(2, .msg (arrFields n) [])] [])] [])] = g3 at h3
  have h4 := one_length (t := 6) (n := 2) (k := 10) (f := Pb.rep 2 (.msg 10)) rfl rfl (by decide) (fs := [(2, .msg [(9, .msg [(2, .msg (arrFields n) [])] [])] [])])
    (by rw [hg3]; omega)
  rw [hg3] at h4
  generalize hg4 : encFields otlp 6 [(2, .msg [(2, .msg [(9, .msg [(2, .msg (arrFields n) [])] [])] [])] [])] = g4 at h4
  have h5 := one_length (t := 3) (n := 1) (k := 6) (f := Pb.rep 1 (.msg 6)) rfl rfl (by decide)
    (fs := [(2, .msg [(2, .msg [(9, .msg [(2, .msg (arrFields n) [])] [])] [])] [])]) (by rw [hg4]; omega)
  rw [hg4] at h5
  rw [deepFields]
  omega

/-- **C97**: there are requests (of about a hundred kilobytes) that are accepted, but a client that gets their data as an answer does not read it. -/
theorem C97_too_deep : ∃ b fs w, b.length < 2 ^ 20 ∧ exported 3 b = some (.msg fs []) ∧ marshal otlp 0 (.msg fs []) = some w ∧ w.length < 2 ^ 20 ∧
    unmarshal otlp 0 w ≠ some (.msg fs []) := by
  have hl := deep_length 4997 (by decide)
  have hf : Fits otlp 10000 (.msg 3) (deep 4997) := (deep_fits 4997 9995).2 (by decide)
  have hn : ¬ Fits otlp 9999 (.msg 3) (deep 4997) := fun h => absurd ((deep_fits 4997 9994).1 h) (by decide)
  rw [deep_eq] at hf hn
  generalize hd : deepFields 4997 = fs at hl hf hn
  obtain ⟨b, hb⟩ := writes_any hf
  have hb' : b = encFields otlp 3 fs := by
    unfold marshal at hb
    simp only at hb
    split at hb
    · simpa using (Option.some.inj hb).symm
    · cases hb
  have hbl : b.length < 2 ^ 20 := by rw [hb']; omega
  obtain ⟨h1, w, h2, h3⟩ := C97_sent_back (.inr (.inr rfl)) (by omega) (Pb.C92_round_trip Pb.otlp_proper hf hb (by omega))
  have hwl : w.length < 2 ^ 20 := by
    have : w = encFields otlp 0 [(3, .msg fs [])] := by
      unfold marshal at h2
      simp only at h2
      split at h2
      · simpa using (Option.some.inj h2).symm
      · cases h2
    have ho := one_length (t := 0) (n := 3) (k := 3) (f := Pb.alt 3 (.msg 3)) rfl rfl (by decide) (fs := fs) (by omega)
    rw [this]; omega
  exact ⟨b, _, w, hbl, h1, h2, hwl, fun hu => hn (h3.1 hu)⟩

/-! ### Concrete cases -/

/-- A span with an id, an attribute and a status code, a metric of a sum, a log. -/
def aSpan : Data := .traces [{ schema := [115], resource := some ⟨[⟨[97], some (.str [98])⟩]⟩, scopes := [{ schema := [], scope := some ⟨[110], [], []⟩, items :=
  [{ name := [120], traceId := some [1], spanId := none, parentSpanId := none, start := 5, stop := 7, attrs := [⟨[107], some (.other [16, 1])⟩, ⟨[], none⟩], rest := [48, 2] }] }] }]

def aMetric : Data := .metrics [{ scopes := [{ items := [{ name := [109], rest := [26, 1, 115], data := some { kind := .sum, temporality := 2, monotonic := true, points :=
  [{ ts := 9, attrs := [⟨[107], some (.str [])⟩], rest := [49, 7, 0, 0, 0, 0, 0, 0, 0] }] } }, { name := [], data := none }] }] }]
def aLog : Data := .logs [{ scopes := [{ items := [{ ts := 300, severity := [73], traceId := some [1, 2], spanId := some [3], rest := [16, 9] }] }] }]

/-- Such data exists. -/
example : DataOk Short aLog := by
  intro r hr
  obtain rfl := List.mem_singleton.1 hr
  refine ⟨⟨[], rfl⟩, nofun, fun s hs => ?_⟩
  obtain rfl := List.mem_singleton.1 hs
  refine ⟨⟨[], rfl⟩, nofun, fun l hl => ?_⟩
  obtain rfl := List.mem_singleton.1 hl
  refine ⟨by decide, ⟨[⟨73, by decide⟩], by decide +kernel⟩, nofun, nofun, nofun, [(2, .num 9)], [], ?_, by decide +kernel, (by decide : (2 : Nat) < 2 ^ 64), by decide⟩
  refine Pb.fits_msg.2 ⟨⟨fun e he => ?_, List.pairwise_singleton _ _⟩, .nil⟩
  obtain rfl := List.mem_singleton.1 he
  exact ⟨Pb.fld 2 .enum, by decide, rfl, ⟨⟨(fun e => by cases e), fun ⟨l, e⟩ => (by cases e)⟩, fun _ (e : (9 : Nat) = 0) => by cases e⟩, Pb.fits_num (by decide)⟩

/-- The requests for a log and for metrics. -/
example : (ofData aLog).map (fun p => (p.1, marshal otlp p.1 p.2)) =
    some (2, some [10, 25, 18, 23, 18, 21, 9, 44, 1, 0, 0, 0, 0, 0, 0, 16, 9, 26, 1, 73, 74, 2, 1, 2, 82, 1, 3]) := by decide +kernel
example : (ofData aMetric).map (fun p => (p.1, marshal otlp p.1 p.2)) = some (1, some [10, 47, 18, 45, 18, 41, 10, 1, 109, 26, 1, 115, 58, 33, 10, 27, 25, 9, 0, 0, 0, 0,
    0, 0, 0, 49, 7, 0, 0, 0, 0, 0, 0, 0, 58, 7, 10, 1, 107, 18, 2, 10, 0, 16, 2, 24, 1, 18, 0]) := by decide +kernel
example : ((ofData aSpan).bind fun p => (marshal otlp p.1 p.2).bind (received p.1)) = some aSpan := by decide +kernel
example : ((ofData aMetric).bind fun p => (marshal otlp p.1 p.2).bind (received p.1)) = some aMetric := by decide +kernel

/-- The fields of a log in another order, an empty id, a field twice, and one that the server does not know. -/
example : received 2 [10, 29, 18, 27, 18, 25, 82, 0, 26, 1, 74, 26, 1, 73, 9, 44, 1, 0, 0, 0, 0, 0, 0, 16, 9, 160, 6, 1, 74, 1, 2] =
    some (.logs [{ scopes := [{ items := [{ ts := 300, severity := [73], traceId := some [2], rest := [16, 9, 160, 6, 1] }] }] }]) := by decide +kernel

/-- A severity that is not UTF-8, a request that is cut off: refused. -/
example : received 2 [10, 7, 18, 5, 18, 3, 26, 1, 200] = none ∧ received 2 [10, 7, 18, 5, 18, 3, 26, 1] = none ∧ (received 2 [10, 7, 18, 5, 18, 3, 26, 1, 100]).isSome = true := by decide +kernel

end Verif.Ex
