import Verif.Spec.WireScript
import Verif.Props.WireAnswer
import Verif.Props.ParseScan
import Verif.Props.Package
import Verif.Props.Store
import Verif.Props.Service
/-!
# C99: scripts of `rq query` over the network
-/
namespace Verif.Pk
open Js (Zone Call)
open Tm Cal

variable {σ : Type} {D : Dict σ} {z : Zone} {P : Vs.Hashes}

/-! ## The times of windows -/

theorem wall_near (ok : z.Ok) (t : Int) : t - 86400000000000 ≤ z.wall t ∧ z.wall t ≤ t + 86400000000000 := by
  obtain ⟨h1, h2, -⟩ := ok t
  unfold Zone.wall
  omega

theorem ofWall_near (ok : z.Ok) (w : Int) : w - 86400000000000 ≤ z.ofWall w ∧ z.ofWall w ≤ w + 86400000000000 := by
  obtain ⟨h1, h2, -⟩ := ok w
  obtain ⟨h3, h4, -⟩ := ok (w - (z.period w).off)
  unfold Zone.ofWall
  simp only
  split
  · omega
  · split <;> omega

/-- In the range of the times that can be sent. -/
def InRange (t : Int) : Prop := -2 ^ 62 * 10 ^ 9 ≤ t ∧ t ≤ 2 ^ 62 * 10 ^ 9

theorem windows_near (ok : z.Ok) {ts : Int} (hts : -2 ^ 63 ≤ z.wall ts ∧ z.wall ts < 2 ^ 63) :
    InRange ts ∧ InRange (Js.beginningOfDay z ts) ∧ InRange (Js.beginningOfWeek z ts) ∧ InRange (Js.beginningOfMonth z ts) ∧ InRange (Js.beginningOfYear z ts) := by
  obtain ⟨t, hd, ht, hy, -⟩ := isTime_date hts.1 hts.2
  have hv := ht.1
  have e1 : Js.beginningOfDay z ts = z.ofWall (Js.midnight t) := by
    unfold Js.beginningOfDay; rw [hd]; exact congrArg _ (Js.goDate_spec hv (by omega))
  obtain ⟨b1, b2⟩ := Js.midnight_bounds ht
  have low : ∀ t' : Date, -719600 * 86400000000000 ≤ Js.midnight t' := fun t' => by unfold Js.midnight epochDay; omega
  have near : ∀ {w : Int}, -720000 * 86400000000000 ≤ w → w ≤ z.wall ts + 86400000000000 → InRange (z.ofWall w) := by
    intro w h1 h2
    obtain ⟨h3, h4⟩ := ofWall_near ok w
    constructor <;> omega
  have hd1 := hv.2.2.1
  refine ⟨?_, ?_, ?_, ?_, ?_⟩
  · obtain ⟨h1, h2⟩ := wall_near ok ts
    constructor <;> omega
  · rw [e1]
    have := low t
    exact near (by omega) (by omega)
  · unfold Js.beginningOfWeek
    rw [e1]
    have h0 := low t
    obtain ⟨h1, h2⟩ := ofWall_near ok (Js.midnight t)
    obtain ⟨h3, h4⟩ := wall_near ok (z.ofWall (Js.midnight t))
    have h5 : 0 ≤ Js.weekday (z.wall (z.ofWall (Js.midnight t))) ∧ Js.weekday (z.wall (z.ofWall (Js.midnight t))) < 7 := by
      unfold Js.weekday; omega
    generalize Js.weekday (z.wall (z.ofWall (Js.midnight t))) = k at *
    generalize z.wall (z.ofWall (Js.midnight t)) = w at *
    obtain ⟨h6, h7⟩ := ofWall_near ok (w - k * 86400000000000)
    constructor <;> omega
  · unfold Js.beginningOfMonth; rw [hd]
    show InRange (z.ofWall (Js.goDate ((t.y : Nat) : Int) t.m 1))
    rw [show Js.goDate ((t.y : Nat) : Int) t.m 1 = Js.midnight { t with d := 1 } from Js.goDate_spec (Js.valid_first hv) (by show 1 ≤ t.y; omega)]
    have h0 := low { t with d := 1 }
    refine near (by omega) (Int.le_trans (Int.le_trans ?_ b1) (by omega))
    unfold Js.midnight Date.dayNo
    simp only
    omega
  · unfold Js.beginningOfYear; rw [hd]
    show InRange (z.ofWall (Js.goDate ((t.y : Nat) : Int) 1 1))
    rw [show Js.goDate ((t.y : Nat) : Int) 1 1 = Js.midnight { y := t.y, m := 1, d := 1 } from Js.goDate_spec (Js.valid_year t.y) (by show 1 ≤ t.y; omega)]
    have h0 := low { y := t.y, m := 1, d := 1 }
    refine near (by omega) (Int.le_trans (Int.le_trans ?_ b1) (by omega))
    have h0 : daysBeforeMonth t.y 1 = 0 := rfl
    unfold Js.midnight Date.dayNo
    simp only
    omega

/-! ## Every scan that a script builds can be sent -/

theorem parse_range {s : Bytes} {d : Int} (h : Un.parseDuration s = some d) : -2 ^ 63 ≤ d ∧ d < 2 ^ 63 := by
  rcases Un.C86_reads s d h with ⟨-, rfl⟩ | ⟨_, _, _, -, -, -, h, -⟩
  · decide
  · exact h

/-- As `MethodOk`. -/
def CallOk : Call → Prop
  | .offset d => Un.parseDuration d ≠ some (-2 ^ 63)
  | .now ms => -2 ^ 63 ≤ ms ∧ ms < 2 ^ 63
  | .timeRange a b => (-2 ^ 63 ≤ a ∧ a < 2 ^ 63) ∧ -2 ^ 63 ≤ b ∧ b < 2 ^ 63
  | .resourceSchema v | .scopeSchema v | .scopeName v | .scopeVersion v | .name v | .traceId v | .spanId v | .parentSpanId v | .logLevel v => Pb.Utf8 v
  | .resourceAttr k v | .scopeAttr k v | .attr k v => Pb.Utf8 k ∧ Pb.Utf8 v
  | _ => True

theorem base_ok {s : St.Scan} (h : Ex.ScanOk s) {p : Int} (hp : -2 ^ 31 ≤ p ∧ p < 2 ^ 31) {v : Bytes} (hv : Pb.Utf8 v) : Ex.ScanOk (Js.base s p v) := by
  refine ⟨h.scope, fun f hf => ?_, h.limit, h.times, h.offset⟩
  rcases List.mem_append.1 hf with hf | hf
  · exact h.filters f hf
  · obtain rfl := List.mem_singleton.1 hf
    exact ⟨hp, hv⟩

theorem attr_ok {s : St.Scan} (h : Ex.ScanOk s) {p : Int} (hp : -2 ^ 31 ≤ p ∧ p < 2 ^ 31) {k v : Bytes} (hk : Pb.Utf8 k) (hv : Pb.Utf8 v) : Ex.ScanOk (Js.attr s p k v) := by
  refine ⟨h.scope, fun f hf => ?_, h.limit, h.times, h.offset⟩
  rcases List.mem_append.1 hf with hf | hf
  · exact h.filters f hf
  · obtain rfl := List.mem_singleton.1 hf
    exact ⟨hp, hk, hv⟩

theorem range_ok {s : St.Scan} (h : Ex.ScanOk s) {a b : Int} (ha : InRange a) (hb : InRange b) : Ex.ScanOk (Js.rangeTS s a b) :=
  ⟨h.scope, h.filters, h.limit, ⟨fun x y e => (by cases e; exact ⟨ha, hb⟩), h.times.now, h.times.offset⟩, h.offset⟩

theorem scope_ok {s : St.Scan} (h : Ex.ScanOk s) {r : Int} (hr : -2 ^ 31 ≤ r ∧ r < 2 ^ 31) : Ex.ScanOk { s with scope := r } :=
  ⟨hr, h.filters, h.limit, h.times, h.offset⟩

theorem millis {ms : Int} (h : -2 ^ 63 ≤ ms ∧ ms < 2 ^ 63) : InRange (ms * 1000000) := by constructor <;> omega

theorem call_ok (ok : z.Ok) {s : St.Scan} (h : Ex.ScanOk s) {ts : Int} (hts : -2 ^ 63 ≤ z.wall ts ∧ z.wall ts < 2 ^ 63) {c : Call} (hc : CallOk c) :
    Ex.ScanOk (Js.call Un.parseDuration z s ts c) := by
  obtain ⟨w0, w1, w2, w3, w4⟩ := windows_near ok hts
  cases c with
  | resource r =>
    simp only [Js.call]
    split
    · exact scope_ok h (by decide)
    · split
      · exact scope_ok h (by decide)
      · split
        · exact scope_ok h (by decide)
        · exact h
  | limit n =>
    refine ⟨h.scope, h.filters, ?_, h.times, h.offset⟩
    show (n % 2 ^ 64).toNat < 2 ^ 64
    omega
  | offset d =>
    simp only [Js.call]
    cases hp : Un.parseDuration d with
    | none => exact h
    | some x =>
      exact ⟨h.scope, h.filters, h.limit, ⟨h.times.range, h.times.now, fun y e => (by cases e; exact parse_range hp)⟩, fun e => hc (by rw [hp]; exact e)⟩
  | now ms => exact ⟨h.scope, h.filters, h.limit, ⟨h.times.range, fun y e => (by cases e; exact millis hc), h.times.offset⟩, h.offset⟩
  | reverse => exact ⟨h.scope, h.filters, h.limit, h.times, h.offset⟩
  | resourceSchema v => exact base_ok h (by decide) hc
  | scopeSchema v => exact base_ok h (by decide) hc
  | scopeName v => exact base_ok h (by decide) hc
  | scopeVersion v => exact base_ok h (by decide) hc
  | name v => exact base_ok h (by decide) hc
  | traceId v => exact base_ok h (by decide) hc
  | spanId v => exact base_ok h (by decide) hc
  | parentSpanId v => exact base_ok h (by decide) hc
  | logLevel v => exact base_ok h (by decide) hc
  | resourceAttr k v => exact attr_ok h (by decide) hc.1 hc.2
  | scopeAttr k v => exact attr_ok h (by decide) hc.1 hc.2
  | attr k v => exact attr_ok h (by decide) hc.1 hc.2
  | timeRange a b => exact range_ok h (millis hc.1) (millis hc.2)
  | today => exact range_ok h w1 w0
  | thisWeek => exact range_ok h w2 w0
  | thisMonth => exact range_ok h w3 w0
  | thisYear => exact range_ok h w4 w0
  | ago d =>
    simp only [Js.call]
    cases hp : Un.parseDuration d with
    | none => exact h
    | some x =>
      refine range_ok h ?_ w0
      have := parse_range hp
      obtain ⟨h1, h2⟩ := wall_near ok ts
      unfold Js.addNeg
      constructor <;> split <;> omega

/-- **C99**: every scan that a script builds can be sent. -/
theorem build_ok (ok : z.Ok) (r : Bytes) (cs : List (Int × Call)) (hts : ∀ c ∈ cs, -2 ^ 63 ≤ z.wall c.1 ∧ z.wall c.1 < 2 ^ 63) (hc : ∀ c ∈ cs, CallOk c.2) :
    Ex.ScanOk (Js.build Un.parseDuration z r cs) := by
  have h0 : Ex.ScanOk { scope := Res.unknown } := ⟨by decide, nofun, by decide, ⟨nofun, nofun, nofun⟩, nofun⟩
  have h1 : Ex.ScanOk (Js.call Un.parseDuration z { scope := Res.unknown } 0 (.resource r)) := by
    simp only [Js.call]
    split
    · exact scope_ok h0 (by decide)
    · split
      · exact scope_ok h0 (by decide)
      · split
        · exact scope_ok h0 (by decide)
        · exact h0
  unfold Js.build
  generalize Js.call Un.parseDuration z { scope := Res.unknown } 0 (.resource r) = s at h1
  clear h0
  induction cs generalizing s with
  | nil => exact h1
  | cons c cs ih =>
    exact ih (fun x hx => hts x (List.mem_cons_of_mem _ hx)) (fun x hx => hc x (List.mem_cons_of_mem _ hx)) _ (call_ok ok h1 (hts c List.mem_cons_self) (hc c List.mem_cons_self))

theorem filter_call {m : Method} (h : MethodOk m) : CallOk m.call := by
  cases m with
  | latest => exact trivial
  | _ => exact h

/-! ## Scripts -/

/-- **C99**: a query object of a script that the client runs asks the server for the scan that the calls on the object ask for, and gets what it would get from the server's store
itself; or an exception, if a message has more than 4 MiB. Whatever was exported, flushed, cut off, lost in a crash and restarted before, and whatever else the script does. -/
theorem C99_script {bw : Nat} (hpos : 0 < bw) {db : KV} (hdb : db Sq.seqKey = none) (st : σ) (ls : List (Sv.Label σ)) {s0 s : Sv.Svc σ} {es : List (Sv.Event σ)}
    (h0 : Sv.init bw st db = some s0) (hrun : Sv.run D bw s0 ls = some (s, es)) (hb : Sv.used bw ls + bw < 2 ^ 64)
    (ho : ∀ fl, .save fl ∈ ls → ∀ m, (fl.viewOrder m).Perm m) (hx : ∀ t d, .call t d ∈ ls → Ex.Sent d)
    (E : St.Env) {server : Rq.GoTime} (hc : server.Near) (hE : E.clock = server.unixNano)
    (ok : z.Ok) (pre post : List (Int × Op)) (ts : Int) (cls : Class) (name : Option Bytes)
    (hts : ∀ op ∈ (ts, Op.new cls name) :: post, -2 ^ 63 ≤ z.wall op.1 ∧ z.wall op.1 < 2 ^ 63)
    (hn : ∀ n, name = some n → Pb.Utf8 n) (hm : ∀ m ∈ callsOn (made pre) post, MethodOk m.2) :
    ∃ a, Asks Un.parseDuration z cls name (callsOn (made pre) post) a ∧ ∀ t clock,
      let o := outcome Un.parseDuration z P (pre ++ (ts, .new cls name) :: post) t (.query (made pre) (some (Ex.netScan D s.store E server)) clock)
      o = got cls (Js.queryScan P (St.scan D s.store E) clock a) ∨ (o = .thrown ∧ TooLong (St.scan D s.store E a) a) := by
  obtain ⟨h1, h2⟩ := run_build (parse := Un.parseDuration) (z := z) (P := P) pre post ts cls name
  have hcalls : ∀ m ∈ callsOn (made pre) post, -2 ^ 63 ≤ z.wall m.1 ∧ z.wall m.1 < 2 ^ 63 := by
    intro m hm
    unfold callsOn at hm
    obtain ⟨op, hop, e⟩ := List.mem_filterMap.1 hm
    obtain ⟨t, op⟩ := op
    cases op with
    | call j m' =>
      simp only at e
      split at e
      · cases e; exact hts _ (List.mem_cons_of_mem _ hop)
      · cases e
    | new _ _ => cases e
    | query _ _ _ => cases e
  have hfirst : ∀ c ∈ first ts cls name, c.1 = ts ∧ CallOk c.2 := by
    intro c hc
    unfold first at hc
    split at hc
    · split at hc
      · cases hc
      · obtain rfl := List.mem_singleton.1 hc
        exact ⟨rfl, hn _ rfl⟩
    · cases hc
  refine ⟨_, asks ok Un.fifteen ts cls name (callsOn (made pre) post) (hts _ List.mem_cons_self) hcalls, fun t clock => ?_⟩
  have hok : Ex.ScanOk (Js.build Un.parseDuration z cls.resource (first ts cls name ++ (callsOn (made pre) post).map fun m => (m.1, m.2.call))) := by
    refine build_ok ok _ _ (fun c hc => ?_) (fun c hc => ?_)
    · rcases List.mem_append.1 hc with hc | hc
      · rw [(hfirst c hc).1]; exact hts _ List.mem_cons_self
      · obtain ⟨m, hm, rfl⟩ := List.mem_map.1 hc
        exact hcalls m hm
    · rcases List.mem_append.1 hc with hc | hc
      · exact (hfirst c hc).2
      · obtain ⟨m, hm', rfl⟩ := List.mem_map.1 hc
        exact filter_call (hm m hm')
  have ho' : ∀ fn, outcome Un.parseDuration z P (pre ++ (ts, .new cls name) :: post) t (.query (made pre) fn clock) =
      got cls (Js.jsScan P fn clock (Js.build Un.parseDuration z cls.resource (first ts cls name ++ (callsOn (made pre) post).map fun m => (m.1, m.2.call)))) := by
    intro fn
    unfold outcome
    simp only [step, h1, h2]
  intro o
  show o = _ ∨ _
  have eo : o = _ := ho' _
  generalize Js.build Un.parseDuration z cls.resource (first ts cls name ++ (callsOn (made pre) post).map fun m => (m.1, m.2.call)) = a at *
  rcases Ex.C98_query (D := D) hpos hdb st ls h0 hrun hb ho hx E hc hE hok with h | ⟨h, h'⟩
  · left
    rw [eo]
    unfold Js.queryScan Js.jsScan
    simp only [h]
  · right
    refine ⟨?_, h'⟩
    rw [eo, (Js.C41_errors (P := P) (clock := clock) (a := a) _).2 h]
    rfl

theorem payload_items {cls : Class} {d : Data} : ∀ x ∈ (get cls d).payload.items, x ∈ d.items := by
  intro x hx
  cases cls <;> cases d <;> first | exact hx | cases hx

/-- **C99**: what a script at the client reads was exported: every log record, span and data point in the value of `query()` was in a request that the server has received. -/
theorem C99_exported {bw : Nat} (hpos : 0 < bw) {db : KV} (hdb : db Sq.seqKey = none) (st : σ) (ls : List (Sv.Label σ)) {s0 s : Sv.Svc σ} {es : List (Sv.Event σ)}
    (h0 : Sv.init bw st db = some s0) (hrun : Sv.run D bw s0 ls = some (s, es)) (hb : Sv.used bw ls + bw < 2 ^ 64)
    (ho : ∀ fl, .save fl ∈ ls → ∀ m, (fl.viewOrder m).Perm m) (hx : ∀ t d, .call t d ∈ ls → Ex.Sent d)
    (E : St.Env) (hE' : ∀ m, (E.resOrder m).Perm m) {server : Rq.GoTime} (hc : server.Near) (hE : E.clock = server.unixNano)
    (ok : z.Ok) (pre post : List (Int × Op)) (ts : Int) (cls : Class) (name : Option Bytes)
    (hts : ∀ op ∈ (ts, Op.new cls name) :: post, -2 ^ 63 ≤ z.wall op.1 ∧ z.wall op.1 < 2 ^ 63)
    (hn : ∀ n, name = some n → Pb.Utf8 n) (hm : ∀ m ∈ callsOn (made pre) post, MethodOk m.2) {t clock : Int} {v : Value}
    (hv : outcome Un.parseDuration z P (pre ++ (ts, .new cls name) :: post) t (.query (made pre) (some (Ex.netScan D s.store E server)) clock) = .value v) :
    ∀ x ∈ v.payload.items, ∃ k b d, (k = 1 ∨ k = 2 ∨ k = 3) ∧ Ex.received k b = some d ∧ (∃ t, .call t d ∈ ls) ∧ x ∈ d.items := by
  obtain ⟨a, -, h⟩ := C99_script (P := P) hpos hdb st ls h0 hrun hb ho hx E hc hE ok pre post ts cls name hts hn hm
  intro x hxv
  rcases h t clock with h | ⟨h, -⟩
  · rw [hv] at h
    have hsub := (Sv.C52_scripts P (St.scan D s.store E) clock a).2
    cases hr : Js.queryScan P (St.scan D s.store E) clock a with
    | data o =>
      rw [hr] at h hsub
      cases o with
      | none => cases h
      | some d =>
        cases h
        obtain ⟨t', d', hd', hx'⟩ := Sv.C52_nothing_invented hpos hdb st ls h0 hrun hb ho s.store.idx s.store.ctx E hE' a x (hsub.subset (payload_items x hxv))
        obtain ⟨k, b, -, hk, hr', -, -⟩ := hx t' d' hd'
        exact ⟨k, b, d', hk, hr', ⟨t', hd'⟩, hx'⟩
    | err => rw [hr] at h; cases h
    | panic => rw [hr] at h; cases h
    | undefined => rw [hr] at h; cases h
  · rw [hv] at h; cases h

/-! ### Cases that meet the hypotheses -/

/-- A log is exported and flushed. -/
def exporting : List (Sv.Label (List Bytes)) := Sv.oneExport 0 Ex.aLog ++ Sv.oneFlush { samples := [], commits := 5 }

/-- A script asks for the logs with the severity `I` of the last microsecond. -/
def asking (severity : Bytes) : List (Int × Op) := [(500, .new .logs none), (501, .call 0 (.logLevel severity)), (1000, .call 0 (.ago (ascii "1us")))]

/-- It gets the log, from the store as over the network; with another severity it gets no logs, and with a severity that is no UTF-8 an exception, but only over the network. -/
example : ((Sv.init 1000 [] KV.empty).bind fun s0 => (Sv.run listDict 1000 s0 exporting).map fun r => [[73], [74], [255]].map fun severity =>
    (outcome Un.parseDuration Zone.utc Vs.xx (asking severity) 1002 (.query 0 (some (Ex.netScan listDict r.1.store St.toyEnv ⟨62135596800, 0⟩)) 1003),
      outcome Un.parseDuration Zone.utc Vs.xx (asking severity) 1002 (.query 0 (some (St.scan listDict r.1.store St.toyEnv)) 1003))) =
    some [(.value (get .logs Ex.aLog), .value (get .logs Ex.aLog)), (.value (.logs []), .value (.logs [])), (.thrown, .value (.logs []))] := by decide +kernel

/-- The hypotheses of `C99_script` and `C99_exported` for this script. -/
example {s0 s : Sv.Svc (List Bytes)} {es : List (Sv.Event (List Bytes))} (h0 : Sv.init 1000 [] KV.empty = some s0) (hrun : Sv.run listDict 1000 s0 exporting = some (s, es)) :
    ∃ a, Asks Un.parseDuration Zone.utc .logs none [(501, .logLevel [73]), (1000, .ago (ascii "1us"))] a ∧ ∀ t clock,
      let o := outcome Un.parseDuration Zone.utc Vs.xx (asking [73]) t (.query 0 (some (Ex.netScan listDict s.store St.toyEnv ⟨62135596800, 0⟩)) clock)
      (o = got .logs (Js.queryScan Vs.xx (St.scan listDict s.store St.toyEnv) clock a) ∨ (o = .thrown ∧ TooLong (St.scan listDict s.store St.toyEnv a) a)) ∧
      ∀ v, o = .value v → ∀ x ∈ v.payload.items, ∃ k b d, (k = 1 ∨ k = 2 ∨ k = 3) ∧ Ex.received k b = some d ∧ (∃ t, .call t d ∈ exporting) ∧ x ∈ d.items := by
  have hu : Pb.Utf8 [73] := ⟨[⟨73, by decide⟩], by decide +kernel⟩
  have hb : Sv.used 1000 exporting + 1000 < 2 ^ 64 := by decide +kernel
  have ho : ∀ fl, Sv.Label.save fl ∈ exporting → ∀ m, (fl.viewOrder m).Perm m := by
    intro fl h
    simp only [exporting, Sv.oneExport, Sv.oneFlush, List.mem_append, List.mem_cons, Sv.Label.save.injEq, List.not_mem_nil, or_false, reduceCtorEq, false_or] at h
    subst h
    exact fun _ => .refl _
  have hx : ∀ t d, Sv.Label.call t d ∈ exporting → Ex.Sent d := by
    intro t d h
    simp only [exporting, Sv.oneExport, Sv.oneFlush, List.mem_append, List.mem_cons, Sv.Label.call.injEq, List.not_mem_nil, or_false, reduceCtorEq] at h
    rcases h with ⟨-, rfl⟩
    exact Ex.aLog_sent
  have ok : Zone.utc.Ok := Js.Zone.fixed_ok (off := 0) (by decide) (by decide)
  have hts : ∀ op ∈ ((500, Op.new .logs none) :: (asking [73]).tail), -2 ^ 63 ≤ Zone.utc.wall op.1 ∧ Zone.utc.wall op.1 < 2 ^ 63 := by
    intro op hop
    simp only [asking, List.tail, List.mem_cons, List.not_mem_nil, or_false] at hop
    rcases hop with rfl | rfl | rfl <;> decide
  have hm : ∀ m ∈ callsOn (made []) (asking [73]).tail, MethodOk m.2 := by
    intro m hm
    simp only [asking, List.tail, callsOn, made, List.filter_nil, List.length_nil, List.filterMap_cons, if_true, List.filterMap_nil, List.mem_cons, List.not_mem_nil, or_false] at hm
    rcases hm with rfl | rfl
    · exact hu
    · exact trivial
  obtain ⟨a, ha, h⟩ := C99_script (P := Vs.xx) (by decide) rfl [] exporting h0 hrun hb ho hx St.toyEnv (server := ⟨62135596800, 0⟩) ⟨by decide, by decide⟩ rfl ok [] (asking [73]).tail 500 .logs none hts nofun hm
  refine ⟨a, ha, fun t clock => ⟨h t clock, fun v hv => ?_⟩⟩
  exact C99_exported (P := Vs.xx) (by decide) rfl [] exporting h0 hrun hb ho hx St.toyEnv (fun _ => .refl _) (server := ⟨62135596800, 0⟩) ⟨by decide, by decide⟩ rfl ok [] (asking [73]).tail 500 .logs none hts nofun hm hv

end Verif.Pk
