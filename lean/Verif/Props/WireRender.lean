import Verif.Model.WireRender
import Verif.Props.WireScript
import Verif.Props.JsonSame
/-!
# C101: what a script of `rq query` prints as JSON
-/
namespace Verif.Ex
open Pb (Utf8 Val otlp Fits)

variable {α : Type} {short : Bytes → Prop} {d : Nat} {ok : α → Prop} {P : Vs.Hashes} {A : Vs.All}

theorem utf8_nil : Utf8 [] := ⟨[], rfl⟩

theorem rest_nil (hs : short []) {n t : Nat} {seen : List Nat} : RestOk short (n + 1) t seen [] :=
  ⟨[], [], Pb.fits_msg.2 ⟨⟨nofun, .nil⟩, .nil⟩, rfl, hs, nofun⟩

theorem select_sub {β : Type} {f : β → Option Bool} : ∀ {l out : List β}, Vs.select f l = some out → ∀ x ∈ out, x ∈ l := by
  intro l
  induction l with
  | nil => intro out h x hx; cases h; cases hx
  | cons y ys ih =>
    intro out h x hx
    simp only [Vs.select] at h
    split at h
    · cases h
    · split at h
      · cases h
      · rename_i zs hz
        cases h
        split at hx
        · rcases List.mem_cons.1 hx with rfl | hx
          · exact List.mem_cons_self
          · exact List.mem_cons_of_mem _ (ih hz x hx)
        · exact List.mem_cons_of_mem _ (ih hz x hx)

theorem selectMetrics_ok (hs : short []) : ∀ {l out : List Metric}, (∀ m ∈ l, MetricOk short d m) → Vs.selectMetrics P A l = some out → ∀ m ∈ out, MetricOk short d m := by
  intro l
  induction l with
  | nil => intro out _ h x hx; cases h; cases hx
  | cons ms rest ih =>
    intro out hl h
    have hr : ∀ m ∈ rest, MetricOk short d m := fun m hm => hl m (List.mem_cons_of_mem _ hm)
    have h0 := hl ms List.mem_cons_self
    simp only [Vs.selectMetrics] at h
    split at h
    · split at h
      · exact ih hr h
      · rename_i v hv
        split at h
        · cases h
        · rename_i points hp
          split at h
          · cases h
          · rename_i out' ho
            split at h
            · cases h; exact ih hr ho
            · cases h
              intro m hm
              rcases List.mem_cons.1 hm with rfl | hm
              · have hv' := h0.2.2 v hv
                have hpts : ∀ p ∈ points, PointOk short d v.kind p := fun p hp' => hv'.points p (select_sub hp p hp')
                refine ⟨h0.1, rest_nil hs, fun x hx => ?_⟩
                have hx := Option.some.inj hx
                subst hx
                have h1 := hv'.temporality
                cases hk : v.kind <;> rw [hk] at hpts
                · exact ⟨(by decide : (-2 ^ 31 : Int) ≤ 0 ∧ (0 : Int) < 2 ^ 31), fun _ => rfl, nofun, hpts⟩
                · exact ⟨h1, nofun, fun _ => rfl, hpts⟩
                · exact ⟨h1, nofun, nofun, hpts⟩
                · exact ⟨h1, nofun, nofun, hpts⟩
                · exact ⟨(by decide : (-2 ^ 31 : Int) ≤ 0 ∧ (0 : Int) < 2 ^ 31), fun _ => rfl, nofun, hpts⟩
              · exact ih hr ho m hm
    · exact ih hr h

theorem visitScopes_ok {sel : List α → Option (List α)} (hsel : ∀ l out, (∀ x ∈ l, ok x) → sel l = some out → ∀ x ∈ out, ok x) :
    ∀ {l out : List (ScopeG α)}, (∀ s ∈ l, ScopesOk short d ok s) → Vs.visitScopes P A sel l = some out → ∀ s ∈ out, ScopesOk short d ok s := by
  intro l
  induction l with
  | nil => intro out _ h x hx; cases h; cases hx
  | cons sm rest ih =>
    intro out hl h
    have hr : ∀ m ∈ rest, ScopesOk short d ok m := fun m hm => hl m (List.mem_cons_of_mem _ hm)
    have h0 := hl sm List.mem_cons_self
    simp only [Vs.visitScopes] at h
    split at h
    · cases h
    · exact ih hr h
    · split at h
      · cases h
      · rename_i items hi
        split at h
        · cases h
        · rename_i out' ho
          cases h
          split
          · exact ih hr ho
          · intro s hs
            rcases List.mem_cons.1 hs with rfl | hs
            · exact ⟨utf8_nil, h0.2.1, hsel _ _ h0.2.2 hi⟩
            · exact ih hr ho s hs

theorem visitResources_ok {sel : List α → Option (List α)} (hsel : ∀ l out, (∀ x ∈ l, ok x) → sel l = some out → ∀ x ∈ out, ok x) :
    ∀ {l out : List (ResourceG α)}, Kept short d ok l → Vs.visitResources P A sel l = some out → Kept short d ok out := by
  intro l
  induction l with
  | nil => intro out _ h x hx; cases h; cases hx
  | cons rm rest ih =>
    intro out hl h
    have hr : Kept short d ok rest := fun m hm => hl m (List.mem_cons_of_mem _ hm)
    have h0 := hl rm List.mem_cons_self
    simp only [Vs.visitResources] at h
    split at h
    · cases h
    · exact ih hr h
    · split at h
      · cases h
      · rename_i scopes hi
        split at h
        · cases h
        · rename_i out' ho
          cases h
          split
          · exact ih hr ho
          · intro s hs
            rcases List.mem_cons.1 hs with rfl | hs
            · exact ⟨h0.1, h0.2.1, visitScopes_ok hsel h0.2.2 hi⟩
            · exact ih hr ho s hs

/-- What is picked of data by filters and times is of the same form. -/
theorem visit_at (hs : short []) {x out : Data} (h : DataAt short d x) (e : Vs.visit P A x = some out) : DataAt short d out := by
  cases x with
  | none => cases e; trivial
  | metrics rs =>
    simp only [Vs.visit] at e
    split at e
    · cases e
    · rename_i o ho
      cases e
      exact visitResources_ok (fun l out hl he => selectMetrics_ok hs hl he) h ho
  | logs rs =>
    simp only [Vs.visit] at e
    split at e
    · cases e
    · rename_i o ho
      cases e
      exact visitResources_ok (fun l out hl he x hx => hl x (select_sub he x hx)) h ho
  | traces rs =>
    simp only [Vs.visit] at e
    split at e
    · cases e
    · rename_i o ho
      cases e
      exact visitResources_ok (fun l out hl he x hx => hl x (select_sub he x hx)) h ho

/-- What a script gets of a store that gives data of this form. -/
theorem queryScan_at (hs : short []) {store : St.Scan → St.Result} {clock : Int} {a : St.Scan} (h : ∀ out, store a = .data (some out) → DataAt short d out) {out : Data}
    (e : Js.queryScan P store clock a = .data (some out)) : DataAt short d out := by
  have hrpc : ∀ o, Js.rpc (store a) = .data (some o) → DataAt short d o := by
    intro o ho
    cases hr : store a with
    | data x =>
      rw [hr] at ho
      cases x with
      | none => cases ho; trivial
      | some x => cases ho; exact h _ hr
    | err => rw [hr] at ho; cases ho
    | panic => rw [hr] at ho; cases ho
    | undefined => rw [hr] at ho; cases ho
  unfold Js.queryScan Js.jsScan at e
  simp only at e
  split at e
  · cases e
  · cases e
  · cases e
  · rename_i x hx
    split at e
    · cases e; exact hrpc _ hx
    · split at e
      · cases e
      · rename_i x
        split at e
        · cases e
        · rename_i o ho
          cases e
          exact visit_at hs (hrpc _ hx) ho

end Verif.Ex

namespace Verif.Pk
open Js (Zone)
open Pb (Val otlp Fits)

variable {σ : Type} {D : Dict σ} {z : Zone} {P : Vs.Hashes} {shortest : Nat → Int → Fp.Dec}

/-- The message of OTLP that a value is: metrics are a message that is read as these metrics; `null` is a message without fields. -/
def IsMessage (w : Value) (m : Val) : Prop :=
  (∃ rs, w = .metrics rs ∧ Ex.toData (.msg [(1, m)] []) = .metrics rs) ∨ (w = .null ∧ m = .msg [] [])

/-- Metrics that can be sent are printed. -/
theorem prints (S : Fp.Right shortest) {w : Value} (h : w = .null ∨ ∃ rs, w = .metrics rs ∧ Ex.Answerable (.metrics rs)) :
    ∃ m x, IsMessage w m ∧ Fits otlp 9999 (.msg 1) m ∧ Jn.Shows (.msg 1) m x ∧ ∀ pretty extra, ∃ t, renderJSON pretty extra shortest w = some t ∧ ∀ y, Jn.Text (.value y) t ↔ y = x := by
  rcases h with rfl | ⟨rs, rfl, hr⟩
  · have hf : Fits otlp 9999 (.msg 1) (.msg [] []) := Pb.fits_msg.2 ⟨⟨nofun, .nil⟩, .nil⟩
    obtain ⟨x, h1, h2⟩ := Jn.C100_text S hf
    exact ⟨_, x, .inr ⟨rfl, rfl⟩, hf, h1, h2⟩
  · cases hv : Ex.ofData (.metrics rs) with
    | none => cases hv
    | some p =>
      obtain ⟨k, m⟩ := p
      obtain ⟨-, hf, hb⟩ := Ex.ofData_ok hr hv
      obtain rfl : 1 = k := congrArg Prod.fst (Option.some.inj hv)
      obtain ⟨x, h1, h2⟩ := Jn.C100_text S hf
      refine ⟨m, x, .inl ⟨rs, rfl, hb⟩, hf, h1, fun pretty extra => ?_⟩
      obtain ⟨t, ht, hy⟩ := h2 pretty extra
      refine ⟨t, ?_, hy⟩
      simp only [renderJSON]
      rw [hv]
      exact ht

/-- What a script at the client gets of a query for metrics can be sent. -/
theorem script_at {bw : Nat} (hpos : 0 < bw) {db : KV} (hdb : db Sq.seqKey = none) (st : σ) (ls : List (Sv.Label σ)) {s0 s : Sv.Svc σ} {es : List (Sv.Event σ)}
    (h0 : Sv.init bw st db = some s0) (hrun : Sv.run D bw s0 ls = some (s, es)) (hb : Sv.used bw ls + bw < 2 ^ 64)
    (ho : ∀ fl, .save fl ∈ ls → ∀ m, (fl.viewOrder m).Perm m) (hx : ∀ t d, .call t d ∈ ls → Ex.Sent d)
    (E : St.Env) {server : Rq.GoTime} (hc : server.Near) (hE : E.clock = server.unixNano)
    (ok : z.Ok) (pre post : List (Int × Op)) (ts : Int) (name : Option Bytes)
    (hts : ∀ op ∈ (ts, Op.new .metrics name) :: post, -2 ^ 63 ≤ z.wall op.1 ∧ z.wall op.1 < 2 ^ 63)
    (hn : ∀ n, name = some n → Pb.Utf8 n) (hm : ∀ m ∈ callsOn (made pre) post, MethodOk m.2) {t clock : Int} {w : Value}
    (hw : outcome Un.parseDuration z P (pre ++ (ts, .new .metrics name) :: post) t (.query (made pre) (some (Ex.netScan D s.store E server)) clock) = .value w) :
    w = .null ∨ ∃ rs, w = .metrics rs ∧ Ex.Answerable (.metrics rs) := by
  obtain ⟨s', h1, h2, h3⟩ := Sv.init_inv (P := Ex.Answerable) (bw := bw) (st := st) hdb
  rw [h0] at h1; cases h1
  have ha := Sv.run_frame hpos ls h2 (by rw [Sv.used_eq]; omega) (fun t d h => Ex.C98_sent (hx t d h)) ho hrun (by rw [h3]; intro v r hr; cases hr)
  obtain ⟨a, -, h⟩ := C99_script (P := P) hpos hdb st ls h0 hrun hb ho hx E hc hE ok pre post ts .metrics name hts hn hm
  rcases h t clock with h | ⟨h, -⟩
  · rw [hw] at h
    cases hr : Js.queryScan P (St.scan D s.store E) clock a with
    | data o =>
      rw [hr] at h
      cases o with
      | none => cases h
      | some d =>
        have hd : Ex.DataAt Ex.Short 9993 d := Ex.queryScan_at (short := Ex.Short) (by decide : (0 : Nat) < 2 ^ 64) (fun out e => Ex.C98_form ha E a e) hr
        cases h
        cases d with
        | metrics rs => exact .inr ⟨rs, rfl, hd⟩
        | logs _ => exact .inl rfl
        | traces _ => exact .inl rfl
        | none => exact .inl rfl
    | err => rw [hr] at h; cases h
    | panic => rw [hr] at h; cases h
    | undefined => rw [hr] at h; cases h
  · rw [hw] at h; cases h

/-- **C101.** Whatever a script at the client gets of a query for metrics, it can print it as JSON, and the text spells one value, which shows what the script has: whatever was exported,
flushed, cut off, lost in a crash and restarted before, and whatever else the script does. -/
theorem C101_prints (S : Fp.Right shortest) {bw : Nat} (hpos : 0 < bw) {db : KV} (hdb : db Sq.seqKey = none) (st : σ) (ls : List (Sv.Label σ)) {s0 s : Sv.Svc σ} {es : List (Sv.Event σ)}
    (h0 : Sv.init bw st db = some s0) (hrun : Sv.run D bw s0 ls = some (s, es)) (hb : Sv.used bw ls + bw < 2 ^ 64)
    (ho : ∀ fl, .save fl ∈ ls → ∀ m, (fl.viewOrder m).Perm m) (hx : ∀ t d, .call t d ∈ ls → Ex.Sent d)
    (E : St.Env) {server : Rq.GoTime} (hc : server.Near) (hE : E.clock = server.unixNano)
    (ok : z.Ok) (pre post : List (Int × Op)) (ts : Int) (name : Option Bytes)
    (hts : ∀ op ∈ (ts, Op.new .metrics name) :: post, -2 ^ 63 ≤ z.wall op.1 ∧ z.wall op.1 < 2 ^ 63)
    (hn : ∀ n, name = some n → Pb.Utf8 n) (hm : ∀ m ∈ callsOn (made pre) post, MethodOk m.2) {t clock : Int} {w : Value}
    (hw : outcome Un.parseDuration z P (pre ++ (ts, .new .metrics name) :: post) t (.query (made pre) (some (Ex.netScan D s.store E server)) clock) = .value w) :
    ∃ m x, IsMessage w m ∧ Jn.Shows (.msg 1) m x ∧ ∀ pretty extra, ∃ text, renderJSON pretty extra shortest w = some text ∧ ∀ y, Jn.Text (.value y) text ↔ y = x := by
  obtain ⟨m, x, h1, -, h2, h3⟩ := prints S (script_at (P := P) hpos hdb st ls h0 hrun hb ho hx E hc hE ok pre post ts name hts hn hm hw)
  exact ⟨m, x, h1, h2, h3⟩

/-- **C101.** Two results that are printed as texts that spell the same value are the same, but for which of the values that are not a number a double is. -/
theorem C101_differ (S : Fp.Right shortest) {w w' : Value} (h : w = .null ∨ ∃ rs, w = .metrics rs ∧ Ex.Answerable (.metrics rs))
    (h' : w' = .null ∨ ∃ rs, w' = .metrics rs ∧ Ex.Answerable (.metrics rs)) {pretty extra pretty' extra' : Bool} {text text' : Bytes} {x : Jn.Json}
    (ht : renderJSON pretty extra shortest w = some text) (ht' : renderJSON pretty' extra' shortest w' = some text') (hx : Jn.Text (.value x) text) (hx' : Jn.Text (.value x) text') :
    ∃ m m', IsMessage w m ∧ IsMessage w' m' ∧ Jn.Same (.msg 1) m m' := by
  obtain ⟨m, y, h1, hf, h2, h3⟩ := prints S h
  obtain ⟨m', y', h1', hf', h2', h3'⟩ := prints S h'
  obtain ⟨s, hs, h4⟩ := h3 pretty extra
  obtain ⟨s', hs', h4'⟩ := h3' pretty' extra'
  rw [ht] at hs; cases hs
  rw [ht'] at hs'; cases hs'
  obtain rfl := (h4 x).1 hx
  obtain rfl := (h4' x).1 hx'
  exact ⟨m, m', h1, h1', Jn.same_of_shows m 9999 9999 (.msg 1) (.msg 1) m' _ hf hf' (by decide) (by decide) h2 h2'⟩

/-! ### Cases that meet the hypotheses -/

/-- A sum with two points. -/
def aSum : Data := .metrics [{ scopes := [{ items := [{ name := [109], data := some { kind := .sum, temporality := 2, monotonic := true, points :=
  [{ ts := 9 }, { ts := 10, attrs := [⟨[107], some (.str [34])⟩] }] } }] }] }]

theorem aSum_answerable : Ex.Answerable aSum := by
  intro r hr
  obtain rfl := List.mem_singleton.1 hr
  refine ⟨Ex.utf8_nil, nofun, fun s hs => ?_⟩
  obtain rfl := List.mem_singleton.1 hs
  refine ⟨Ex.utf8_nil, nofun, fun m hm => ?_⟩
  obtain rfl := List.mem_singleton.1 hm
  have hs : Ex.Short [] := (by decide : (0 : Nat) < 2 ^ 64)
  refine ⟨⟨[⟨109, by decide⟩], by decide +kernel⟩, Ex.rest_nil hs, fun x hx => ?_⟩
  obtain rfl := Option.some.inj hx
  refine ⟨(by decide : (-2 ^ 31 : Int) ≤ 2 ∧ (2 : Int) < 2 ^ 31), (by rintro (h | h) <;> cases h), fun _ => rfl, fun p hp => ?_⟩
  simp only [List.mem_cons, List.not_mem_nil, or_false] at hp
  rcases hp with rfl | rfl
  · exact ⟨(by decide : (9 : Nat) < 2 ^ 64), nofun, Ex.rest_nil hs⟩
  · refine ⟨(by decide : (10 : Nat) < 2 ^ 64), fun kv hkv => ?_, Ex.rest_nil hs⟩
    obtain rfl := List.mem_singleton.1 hkv
    refine ⟨⟨[⟨107, by decide⟩], by decide +kernel⟩, fun v hv => ?_⟩
    obtain rfl := Option.some.inj hv
    exact ⟨[⟨34, by decide⟩], by decide +kernel⟩

theorem aSum_sent : Ex.Sent aSum :=
  Ex.C98_sendable aSum_answerable (k := 1) rfl (b := [10, 45, 18, 43, 18, 41, 10, 1, 109, 58, 36, 10, 9, 25, 9, 0, 0, 0, 0, 0, 0, 0, 10, 19, 25, 10, 0, 0, 0, 0, 0, 0, 0,
    58, 8, 10, 1, 107, 18, 3, 10, 1, 34, 16, 2, 24, 1]) (by decide +kernel) (by decide)

/-- It is exported and flushed. -/
def exportingSum : List (Sv.Label (List Bytes)) := Sv.oneExport 0 aSum ++ Sv.oneFlush { samples := [], commits := 5 }

/-- A script asks for the metrics of some name that the last 990 nanoseconds have. -/
def askingSum (name : Bytes) : List (Int × Op) := [(500, .new .metrics (some name)), (1000, .call 0 (.ago (ascii "990ns")))]

/-- What it prints: the point at 9 is too old; and for a name that nothing has. -/
example : ((Sv.init 1000 [] KV.empty).bind fun s0 => (Sv.run listDict 1000 s0 exportingSum).map fun r => [[109], [110]].map fun name =>
    match outcome Un.parseDuration Zone.utc Vs.xx (askingSum name) 1002 (.query 0 (some (Ex.netScan listDict r.1.store St.toyEnv ⟨62135596800, 0⟩)) 1003) with
    | .value w => renderJSON false false Jn.exDigits w
    | _ => none) =
    some [some (ascii "{\"resourceMetrics\":[{\"scopeMetrics\":[{\"metrics\":[{\"name\":\"m\",\"sum\":{\"dataPoints\":[{\"attributes\":[{\"key\":\"k\",\"value\":{\"stringValue\":\"\\\"\"}}],\"timeUnixNano\":\"10\"}],\"aggregationTemporality\":\"AGGREGATION_TEMPORALITY_CUMULATIVE\",\"isMonotonic\":true}}]}]}]}"),
      some (ascii "{}")] := by decide +kernel

/-- The hypotheses of `C101_prints` for this script. -/
example {s0 s : Sv.Svc (List Bytes)} {es : List (Sv.Event (List Bytes))} (h0 : Sv.init 1000 [] KV.empty = some s0) (hrun : Sv.run listDict 1000 s0 exportingSum = some (s, es)) :
    ∃ shortest, Fp.Right shortest ∧ ∀ t clock w, outcome Un.parseDuration Zone.utc Vs.xx (askingSum [109]) t (.query 0 (some (Ex.netScan listDict s.store St.toyEnv ⟨62135596800, 0⟩)) clock) = .value w →
      ∃ m x, IsMessage w m ∧ Jn.Shows (.msg 1) m x ∧ ∀ pretty extra, ∃ text, renderJSON pretty extra shortest w = some text ∧ ∀ y, Jn.Text (.value y) text ↔ y = x := by
  have hb : Sv.used 1000 exportingSum + 1000 < 2 ^ 64 := by decide +kernel
  have ho : ∀ fl, Sv.Label.save fl ∈ exportingSum → ∀ m, (fl.viewOrder m).Perm m := by
    intro fl h
    simp only [exportingSum, Sv.oneExport, Sv.oneFlush, List.mem_append, List.mem_cons, Sv.Label.save.injEq, List.not_mem_nil, or_false, reduceCtorEq, false_or] at h
    subst h
    exact fun _ => .refl _
  have hx : ∀ t d, Sv.Label.call t d ∈ exportingSum → Ex.Sent d := by
    intro t d h
    simp only [exportingSum, Sv.oneExport, Sv.oneFlush, List.mem_append, List.mem_cons, Sv.Label.call.injEq, List.not_mem_nil, or_false, reduceCtorEq] at h
    rcases h with ⟨-, rfl⟩
    exact aSum_sent
  have ok : Zone.utc.Ok := Js.Zone.fixed_ok (off := 0) (by decide) (by decide)
  have hts : ∀ op ∈ ((500, Op.new .metrics (some [109])) :: (askingSum [109]).tail), -2 ^ 63 ≤ Zone.utc.wall op.1 ∧ Zone.utc.wall op.1 < 2 ^ 63 := by
    intro op hop
    simp only [askingSum, List.tail, List.mem_cons, List.not_mem_nil, or_false] at hop
    rcases hop with rfl | rfl <;> decide
  have hn : ∀ n, some [109] = some n → Pb.Utf8 n := fun n e => by
    obtain rfl := Option.some.inj e
    exact ⟨[⟨109, by decide⟩], by decide +kernel⟩
  have hm : ∀ m ∈ callsOn (made []) (askingSum [109]).tail, MethodOk m.2 := by
    intro m hm
    simp only [askingSum, List.tail, callsOn, made, List.filter_nil, List.length_nil, List.filterMap_cons, if_true, List.filterMap_nil, List.mem_cons, List.not_mem_nil, or_false] at hm
    subst hm
    exact trivial
  obtain ⟨S, hS⟩ := Fp.right_exists
  exact ⟨S, hS, fun t clock w hw => C101_prints hS (by decide) rfl [] exportingSum h0 hrun hb ho hx St.toyEnv (server := ⟨62135596800, 0⟩) ⟨by decide, by decide⟩ rfl ok [] (askingSum [109]).tail 500
    (some [109]) hts hn hm hw⟩

end Verif.Pk
