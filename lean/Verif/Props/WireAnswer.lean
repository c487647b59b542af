import Verif.Lemmas.WireAnswer
import Verif.Props.EndToEnd
import Verif.Props.WireExport
import Verif.Props.WireScan
/-!
# C98: the answer of a scan arrives
-/
namespace Verif.Ex
open Pb (Val otlp marshal unmarshal encFields Fits Utf8)
open Rq (vals)

variable {σ : Type} {D : Dict σ}

/-! ## Scans return answerable data -/

theorem rows_at {short : Bytes → Prop} {d : Nat} {kind : Int} {rows : List Data} (h : ∀ x ∈ rows, x = .none ∨ DataAt short d x) : ∀ {is : List Nat} {l : List (Nat × Data)},
    Df.readRows kind rows is = .ok l → ∀ e ∈ l, DataAt short d e.2 := by
  intro is
  induction is with
  | nil => intro l h; cases h; intro e he; cases he
  | cons i is ih =>
    intro l hl
    simp only [Df.readRows] at hl
    split at hl
    · cases hl
    · rename_i x hx
      split at hl
      · rename_i l' hl'
        cases hl
        intro e he
        rcases List.mem_cons.1 he with rfl | he
        · exact project_at (h x (List.mem_of_getElem? hx))
        · exact ih hl' e he
      · rename_i hne
        exact absurd hl (hne l)

theorem unmarshal_at {short : Bytes → Prop} {d : Nat} {f : Df.Frame} (h : Df.All (DataAt short d) f) {fault : Bytes → Bool} {kind : Int} {wanted : Bm} :
    ∀ {vs : List Bytes} {l : List (Nat × Data)}, Df.unmarshal f fault kind wanted vs = .ok l → ∀ e ∈ l, DataAt short d e.2 := by
  intro vs
  induction vs with
  | nil => intro l h; cases h; intro e he; cases he
  | cons v vs ih =>
    intro l hl
    simp only [Df.unmarshal] at hl
    split at hl
    · rename_i l1 h1
      split at hl
      · rename_i l2 h2
        cases hl
        intro e he
        rcases List.mem_append.1 he with he | he
        · unfold Df.readView at h1
          split at h1
          · cases h1
          · split at h1
            · cases h1; cases he
            · rename_i r hr
              split at h1
              · cases h1; cases he
              · exact rows_at (h v r hr) h1 e he
        · exact ih h2 e he
      · rename_i hne
        exact absurd hl (hne l)
    · rename_i hne
      exact absurd hl (hne l)

theorem zero_at {short : Bytes → Prop} {d : Nat} {k : Int} {out : Data} (h : Dt.zero k = some out) : DataAt short d out := by
  unfold Dt.zero at h
  split_ifs at h <;> (cases h; exact nofun)

/-- **C98**: what a scan returns is of the form of what was exported: strings are UTF-8, times have 64 bits, ids are not empty, nothing is nested deeper. -/
theorem C98_form {short : Bytes → Prop} {d : Nat} {s : St.Store σ} (h : Df.All (DataAt short d) s.frame) (E : St.Env) (sc : St.Scan) {out : Data}
    (ho : St.scan D s E sc = .data (some out)) : DataAt short d out := by
  have hz : ∀ {o}, (St.Result.data (Dt.zero sc.scope)) = .data (some o) → DataAt short d o := by
    intro o e
    injection e with e
    exact zero_at e
  revert ho
  unfold St.scan
  split
  · intro e; cases e
  · split
    · exact hz
    · split
      · intro e; cases e
      · split
        · exact hz
        · split
          · exact hz
          · unfold St.readSamples
            split
            · split
              · intro e; cases e
              · intro e; cases e
              · rename_i l hl
                split
                · intro e; cases e
                · rename_i x hx
                  intro e
                  injection e with e
                  subst e
                  refine collapse_at E.P (fun t ht => ?_) hx
                  obtain ⟨e, he, rfl⟩ := List.mem_map.1 ht
                  exact unmarshal_at h hl e he
            · intro e; cases e

/-! ## Answers are read as they were -/

theorem ofData_ok {d : Data} (h : Answerable d) {k : Nat} {v : Val} (hv : ofData d = some (k, v)) :
    (k = 1 ∨ k = 2 ∨ k = 3) ∧ Fits otlp 9999 (.msg k) v ∧ toData (.msg [(k, v)] []) = d := by
  cases d with
  | none => cases hv
  | metrics rs =>
    obtain ⟨rfl, rfl⟩ := Prod.mk.inj (Option.some.inj hv)
    have hf := req_fits (k := 1) (t := 8) (i := 13) (d := 9993) (by decide) rfl (by decide) (fun x hx => metric_fits (d := 9991) (by decide) hx) h
    have hb := req_back (k := 1) (t := 8) (i := 13) (d := 9993) (by decide) rfl (by decide) (fun x hx => metric_back (d := 9991) (by decide) hx) h
    exact ⟨.inl rfl, hf, congrArg Data.metrics hb⟩
  | logs rs =>
    obtain ⟨rfl, rfl⟩ := Prod.mk.inj (Option.some.inj hv)
    have hf := req_fits (k := 2) (t := 9) (i := 14) (d := 9993) (by decide) rfl (by decide) (fun x hx => log_fits (d := 9993) (by decide) hx) h
    have hb := req_back (k := 2) (t := 9) (i := 14) (d := 9993) (by decide) rfl (by decide) (fun x hx => log_back (d := 9993) (by decide) hx) h
    exact ⟨.inr (.inl rfl), hf, congrArg Data.logs hb⟩
  | traces rs =>
    obtain ⟨rfl, rfl⟩ := Prod.mk.inj (Option.some.inj hv)
    have hf := req_fits (k := 3) (t := 10) (i := 15) (d := 9993) (by decide) rfl (by decide) (fun x hx => span_fits (d := 9993) (by decide) hx) h
    have hb := req_back (k := 3) (t := 10) (i := 15) (d := 9993) (by decide) rfl (by decide) (fun x hx => span_back (d := 9993) (by decide) hx) h
    exact ⟨.inr (.inr rfl), hf, congrArg Data.traces hb⟩

theorem empty_fits : Fits otlp 10000 (.msg 0) (.msg [] []) := Pb.fits_msg.2 ⟨⟨nofun, .nil⟩, .nil⟩

theorem answer_ok {o : Option Data} (h : ∀ d, o = some d → Answerable d) : Fits otlp 10000 (.msg 0) (answerVal o) ∧ toData (answerVal o) = o.getD .none := by
  cases o with
  | none => exact ⟨empty_fits, rfl⟩
  | some d =>
    have hd := h d rfl
    unfold answerVal
    simp only
    cases hp : ofData d with
    | none =>
      have : d = .none := by cases d <;> first | rfl | cases hp
      subst this
      exact ⟨empty_fits, rfl⟩
    | some p =>
      obtain ⟨k, v⟩ := p
      obtain ⟨hk, hf, ht⟩ := ofData_ok hd hp
      refine ⟨?_, ht⟩
      refine Pb.fits_msg.2 ⟨⟨fun e he => ?_, List.pairwise_singleton _ _⟩, .nil⟩
      obtain rfl := List.mem_singleton.1 he
      have hn := not_nums hf
      exact ⟨{ num := k, kind := .msg k, card := .oneof 0 }, by rcases hk with rfl | rfl | rfl <;> decide, rfl,
        ⟨⟨(fun e => by cases e), fun ⟨l, e⟩ => absurd e (hn.1 l)⟩, (fun e => by cases e)⟩, hf⟩

/-- **C98**: an answer can be written, and the client reads what was sent, unless it has more than 4 MiB: then the call fails. A nil answer arrives as an empty one. -/
theorem C98_answer {o : Option Data} (h : ∀ d, o = some d → Answerable d) : ∃ w, marshal otlp 0 (answerVal o) = some w ∧
    (w.length ≤ 2 ^ 22 → got w = some (o.getD .none)) ∧ (2 ^ 22 < w.length → got w = none) := by
  obtain ⟨hf, ht⟩ := answer_ok h
  obtain ⟨w, hw, -⟩ := Pb.C92_writes Pb.otlp_proper hf
  refine ⟨w, hw, fun hl => ?_, fun hl => if_pos hl⟩
  unfold got
  rw [if_neg (by unfold Rq.recvLimit; omega), Pb.C92_round_trip Pb.otlp_proper hf hw (by omega), Option.map_some, ht]

/-! ## Scans of scripts over the network -/

theorem req_of_ok {a : St.Scan} (h : ScanOk a) : (Rq.reqOf a).Ok := by
  refine ⟨h.scope, ?_, h.filters, h.limit, ?_, ?_⟩
  · intro x y e
    simp only [Rq.reqOf, Option.map_eq_some_iff, Prod.mk.injEq] at e
    obtain ⟨p, hp, rfl, rfl⟩ := e
    obtain ⟨h1, h2⟩ := h.times.range p.1 p.2 hp
    exact ⟨fun x e => (by cases e; exact (Rq.C96_script_now h1).2.1), fun x e => (by cases e; exact (Rq.C96_script_now h2).2.1)⟩
  · intro x e
    simp only [Rq.reqOf, Option.map_eq_some_iff] at e
    obtain ⟨n, hn, rfl⟩ := e
    exact (Rq.C96_script_now (h.times.now n hn)).2.1
  · intro x e
    simp only [Rq.reqOf, Option.map_eq_some_iff] at e
    obtain ⟨n, hn, rfl⟩ := e
    exact (Rq.C96_script_offset (h.times.offset n hn)).2.1

theorem served_scan {E : St.Env} {s : St.Store σ} {clock : Rq.GoTime} (hc : clock.Near) (hE : E.clock = clock.unixNano) {a : St.Scan} (h : ScanOk a) :
    St.scan D s E (Rq.served clock (Rq.reqOf a)) = St.scan D s E a := by
  refine Rq.scan_congr D s E rfl rfl ?_ ?_
  · have hb := Rq.C96_script hc h.times h.offset
    rw [hE]
    cases hr : a.time.range with
    | some p =>
      have h1 : (Rq.served clock (Rq.reqOf a)).time =
          { range := some ((Rq.goBounds clock (Rq.reqOf a)).1.unixNano, (Rq.goBounds clock (Rq.reqOf a)).2.unixNano) } := by
        unfold Rq.served
        have : (Rq.reqOf a).range = some (some (Rq.stampOf p.1), some (Rq.stampOf p.2)) := by unfold Rq.reqOf; rw [hr]; rfl
        rw [this]
      rw [h1, ← hb]
      rfl
    | none =>
      have h1 : (Rq.served clock (Rq.reqOf a)).time = { now := some (Rq.goBounds clock (Rq.reqOf a)).2.unixNano } := by
        unfold Rq.served
        have : (Rq.reqOf a).range = none := by unfold Rq.reqOf; rw [hr]; rfl
        rw [this]
      have e : Tm.timeBounds clock.unixNano a.time = ((Tm.timeBounds clock.unixNano a.time).2 - Tm.defaultRange, (Tm.timeBounds clock.unixNano a.time).2) := by
        unfold Tm.timeBounds
        simp only [hr]
      rw [h1, e, ← hb]
      unfold Tm.timeBounds
      simp
  · unfold Rq.served Rq.reqOf
    cases a.time.range <;> rfl

/-- **C98**: a scan of a script that is sent to the server, and whose answer is sent back, is the scan of the store (`rpc`: a nil answer becomes an empty one, a crash of the server an
error), unless the request or the answer has more than 4 MiB: then it is an error. -/
theorem C98_scan {s : St.Store σ} (hs : Df.All Answerable s.frame) (E : St.Env) {clock : Rq.GoTime} (hc : clock.Near) (hE : E.clock = clock.unixNano) {a : St.Scan} (h : ScanOk a) :
    ∃ b, marshal Rq.rq 0 (Rq.ofReq (Rq.reqOf a)) = some b ∧
      (2 ^ 22 < b.length → netScan D s E clock a = .err) ∧
      (b.length ≤ 2 ^ 22 →
        (∀ o, St.scan D s E a = .data o → ∃ w, marshal otlp 0 (answerVal o) = some w ∧ netScan D s E clock a = if 2 ^ 22 < w.length then .err else Js.rpc (St.scan D s E a)) ∧
        ((∀ o, St.scan D s E a ≠ .data o) → netScan D s E clock a = Js.rpc (St.scan D s E a))) := by
  obtain ⟨b, hb, h1⟩ := Rq.C96_arrives (req_of_ok h)
  refine ⟨b, hb, fun hl => ?_, fun hl => ?_⟩
  · unfold netScan Rq.scanSamples
    rw [hb]
    simp only
    rw [if_pos (by unfold Rq.recvLimit; omega)]
  · have hn : netScan D s E clock a = back (St.scan D s E a) := by
      have h2 := h1 (by omega)
      rw [Option.map_eq_some_iff] at h2
      obtain ⟨v, hv, hr⟩ := h2
      unfold netScan Rq.scanSamples
      rw [hb]
      simp only
      rw [if_neg (by unfold Rq.recvLimit; omega), hv]
      simp only
      rw [hr, served_scan hc hE h]
    constructor
    · intro o ho
      have hA : ∀ d, o = some d → Answerable d := by
        intro d e
        subst e
        exact C98_form hs E a ho
      obtain ⟨w, hw, h3, h4⟩ := C98_answer hA
      refine ⟨w, hw, ?_⟩
      rw [hn, ho]
      unfold back
      simp only [hw]
      by_cases hl' : 2 ^ 22 < w.length
      · rw [if_pos hl', h4 hl']
      · rw [if_neg hl', h3 (Nat.le_of_not_lt hl')]
        rfl
    · intro hno
      rw [hn]
      cases hr : St.scan D s E a with
      | data o => exact absurd hr (hno o)
      | _ => rfl

/-- **C98**: whatever bytes were sent to export data, if they were accepted and nested less than 10000 messages deep the data can be sent as an answer. -/
theorem C98_sent {d : Data} (h : Sent d) : Answerable d := by
  obtain ⟨k, b, v, hk, hr, hv, hf⟩ := h
  unfold received exported at hr
  split at hr
  · cases hr
  rename_i hl
  rw [Option.map_map, Option.map_eq_some_iff] at hr
  obtain ⟨v', hv', rfl⟩ := hr
  obtain rfl : v = v' := Option.some.inj (hv.symm.trans hv')
  have hm := fits_some hf
  have hw : Pb.weight v < 2 ^ 64 := by
    have := Pb.unmarshal_weight hv
    unfold Rq.recvLimit at hl
    omega
  rcases hk with rfl | rfl | rfl
  · have := req_ok light (t := 8) (i := 13) (d := 9993) (by decide) (by decide) (fun w hw hp => metric_ok light (d := 9991) (by decide) hw hp) hf hw
    rw [← vals_fieldsOf 1 _ [] hm] at this
    exact this
  · have := req_ok light (t := 9) (i := 14) (d := 9993) (by decide) (by decide) (fun w hw hp => log_ok light (d := 9993) (by decide) hw hp) hf hw
    rw [← vals_fieldsOf 1 _ [] hm] at this
    exact this
  · have := req_ok light (t := 10) (i := 15) (d := 9993) (by decide) (by decide) (fun w hw hp => span_ok light (d := 9993) (by decide) hw hp) hf hw
    rw [← vals_fieldsOf 1 _ [] hm] at this
    exact this

theorem toData_strip {k : Nat} (hk : k = 1 ∨ k = 2 ∨ k = 3) {v : Val} (hm : ∃ fs u, v = .msg fs u) : toData (.msg [(k, .msg (fieldsOf v) [])] []) = toData (.msg [(k, v)] []) := by
  obtain ⟨fs, u, rfl⟩ := hm
  rcases hk with rfl | rfl | rfl <;> rfl

/-- **C98**: and a client that exports such data (in at most 4 MiB) sends such bytes. -/
theorem C98_sendable {d : Data} (h : Answerable d) {k : Nat} {v : Val} (hv : ofData d = some (k, v)) {b : Bytes} (hb : marshal otlp k v = some b) (hl : b.length ≤ 2 ^ 22) : Sent d := by
  obtain ⟨hk, hf, ht⟩ := ofData_ok h hv
  have hu := Pb.C92_round_trip Pb.otlp_proper (fits_mono _ (by decide : 9999 ≤ 10000) hf) hb (by omega)
  refine ⟨k, b, v, hk, ?_, hu, hf⟩
  rw [received_of hl hu, toData_strip hk (fits_some hf), ht]

/-- **C98**, for every history: whatever was exported (with requests that are nested less than 10000 messages deep), flushed, cut off, lost in a crash and restarted before,
the scan of a script at the client gets what the scan of the store at the server returns, or an error if a message has more than 4 MiB. -/
theorem C98_query {bw : Nat} (hpos : 0 < bw) {db : KV} (hdb : db Sq.seqKey = none) (st : σ) (ls : List (Sv.Label σ)) {s0 s : Sv.Svc σ} {es : List (Sv.Event σ)}
    (h0 : Sv.init bw st db = some s0) (hrun : Sv.run D bw s0 ls = some (s, es)) (hb : Sv.used bw ls + bw < 2 ^ 64)
    (ho : ∀ fl, .save fl ∈ ls → ∀ m, (fl.viewOrder m).Perm m) (hx : ∀ t d, .call t d ∈ ls → Sent d)
    (E : St.Env) {clock : Rq.GoTime} (hc : clock.Near) (hE : E.clock = clock.unixNano) {a : St.Scan} (h : ScanOk a) :
    netScan D s.store E clock a = Js.rpc (St.scan D s.store E a) ∨ (netScan D s.store E clock a = .err ∧
      ((∃ b, marshal Rq.rq 0 (Rq.ofReq (Rq.reqOf a)) = some b ∧ 2 ^ 22 < b.length) ∨
        ∃ o w, St.scan D s.store E a = .data o ∧ marshal otlp 0 (answerVal o) = some w ∧ 2 ^ 22 < w.length)) := by
  obtain ⟨s', h1, h2, h3⟩ := Sv.init_inv (P := Answerable) (bw := bw) (st := st) hdb
  rw [h0] at h1; cases h1
  have ha := Sv.run_frame hpos ls h2 (by rw [Sv.used_eq]; omega) (fun t d h => C98_sent (hx t d h)) ho hrun (by rw [h3]; intro v r hr; cases hr)
  obtain ⟨b, hb, h4, h5⟩ := C98_scan (D := D) ha E hc hE h
  by_cases hl : 2 ^ 22 < b.length
  · exact .inr ⟨h4 hl, .inl ⟨b, hb, hl⟩⟩
  · obtain ⟨h6, h7⟩ := h5 (Nat.le_of_not_lt hl)
    by_cases hd : ∃ o, St.scan D s.store E a = .data o
    · obtain ⟨o, hd⟩ := hd
      obtain ⟨w, hw, hn⟩ := h6 o hd
      by_cases hl' : 2 ^ 22 < w.length
      · rw [if_pos hl'] at hn
        exact .inr ⟨hn, .inr ⟨o, w, hd, hw, hl'⟩⟩
      · rw [if_neg hl'] at hn
        exact .inl hn
    · exact .inl (h7 fun o e => hd ⟨o, e⟩)

/-! ## Cases -/

/-- A log can be sent back. -/
theorem aLog_answerable : Answerable aLog := by
  intro r hr
  obtain rfl := List.mem_singleton.1 hr
  refine ⟨⟨[], rfl⟩, nofun, fun s hs => ?_⟩
  obtain rfl := List.mem_singleton.1 hs
  refine ⟨⟨[], rfl⟩, nofun, fun l hl => ?_⟩
  obtain rfl := List.mem_singleton.1 hl
  refine ⟨by decide, ⟨[⟨73, by decide⟩], by decide +kernel⟩, nofun, nofun, nofun, [(2, .num 9)], [], ?_, by decide +kernel, (by decide : (2 : Nat) < 2 ^ 64), by decide⟩
  refine Pb.fits_msg.2 ⟨⟨fun e he => ?_, List.pairwise_singleton _ _⟩, .nil⟩
  obtain rfl := List.mem_singleton.1 he
  exact ⟨Pb.fld 2 .enum, by decide, rfl, ⟨⟨(fun e => by cases e), fun ⟨l, e⟩ => (by cases e)⟩, fun _ (e : (9 : Nat) = 0) => by cases e⟩, Pb.fits_num (by decide)⟩

/-- It is sent with these bytes. -/
theorem aLog_sent : Sent aLog :=
  C98_sendable aLog_answerable (k := 2) rfl (b := [10, 25, 18, 23, 18, 21, 9, 44, 1, 0, 0, 0, 0, 0, 0, 16, 9, 26, 1, 73, 74, 2, 1, 2, 82, 1, 3]) (by decide +kernel) (by decide)

/-- The bytes of an answer: the log is the second choice of the message. -/
example : marshal otlp 0 (answerVal (some aLog)) =
    some [18, 27, 10, 25, 18, 23, 18, 21, 9, 44, 1, 0, 0, 0, 0, 0, 0, 16, 9, 26, 1, 73, 74, 2, 1, 2, 82, 1, 3] := by decide +kernel
example : back (.data (some aLog)) = .data (some aLog) ∧ back (.data (some aMetric)) = .data (some aMetric) ∧ back (.data (some aSpan)) = .data (some aSpan) := by
  refine ⟨?_, ?_, ?_⟩ <;> decide +kernel

/-- An empty answer, a nil answer, an empty list of metrics, and what is no answer. -/
example : marshal otlp 0 (answerVal none) = some [] ∧ back (.data none) = .data (some .none) ∧ back (.data (some (.metrics []))) = .data (some (.metrics [])) ∧ back .panic = .err ∧
    got [18, 27] = none := by decide +kernel

/-- A scan that asks for logs with a severity, an hour ago. -/
example : ScanOk { scope := 2, filters := [.base 2 [73]], limit := 10, time := { offset := some 3600000000000 } } :=
  ⟨by decide, fun f hf => (by obtain rfl := List.mem_singleton.1 hf; exact ⟨by decide, [⟨73, by decide⟩], by decide +kernel⟩), by decide,
    ⟨nofun, nofun, fun d hd => (by cases hd; decide)⟩, fun h => (by cases h)⟩

end Verif.Ex
