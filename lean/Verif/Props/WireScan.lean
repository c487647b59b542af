import Verif.Lemmas.WireScan
import Verif.Lemmas.WireScanTime
/-!
# C96: scans that are asked for over the network
-/
namespace Verif.Rq
open Pb (Val Fits marshal unmarshal Utf8)
open Tm (ScanTime defaultRange)

/-- **C96**: a request that a client writes is the request that the server reads. -/
theorem C96_arrives {r : Req} (h : r.Ok) :
    ∃ b, marshal rq 0 (ofReq r) = some b ∧ (b.length < 2 ^ 64 → (unmarshal rq 0 b).map toReq = some r) := by
  obtain ⟨b, hb, -⟩ := Pb.C92_writes rq_proper (req_fits (d := 9997) h)
  refine ⟨b, hb, fun hl => ?_⟩
  rw [Pb.C92_round_trip rq_proper (req_fits (d := 9997) h) hb hl, Option.map_some, toReq_of h]

theorem asTime_eq {s : Option Stamp} (h : ∀ x, s = some x → x.Ok) (hn : ∀ x, s = some x → x.Near) :
    (asTime s).unixNano = (s.map Stamp.at).getD 0 ∧ (-2 ^ 62 - 2 ^ 50 ≤ (asTime s).sec ∧ (asTime s).sec ≤ 2 ^ 62 + 2 ^ 50) ∧ 0 ≤ (asTime s).nsec ∧
      (asTime s).nsec < 1000000000 := by
  cases s with
  | none => decide
  | some x => exact unix_eq (hn x rfl) (h x rfl).2

theorem baseTime_eq {clock : GoTime} (hc : clock.Near) {now : Option Stamp} (h : ∀ x, now = some x → x.Ok) (hn : ∀ x, now = some x → x.Near) :
    (baseTime clock now).unixNano = (now.map Stamp.at).getD clock.unixNano ∧
      (-2 ^ 62 - 2 ^ 50 ≤ (baseTime clock now).sec ∧ (baseTime clock now).sec ≤ 2 ^ 62 + 2 ^ 50) ∧ 0 ≤ (baseTime clock now).nsec ∧
      (baseTime clock now).nsec < 1000000000 := by
  cases now with
  | none =>
    obtain ⟨⟨c1, c2⟩, c3, c4⟩ := hc
    show clock.unixNano = clock.unixNano ∧ (_ ≤ clock.sec ∧ clock.sec ≤ _) ∧ 0 ≤ clock.nsec ∧ clock.nsec < 1000000000
    exact ⟨rfl, ⟨by omega, by omega⟩, c3, by omega⟩
  | some s => exact asTime_eq (s := some s) h hn

theorem less_eq {t : GoTime} (ht : (-2 ^ 62 - 2 ^ 50 ≤ t.sec ∧ t.sec ≤ 2 ^ 62 + 2 ^ 50) ∧ 0 ≤ t.nsec ∧ t.nsec < 1000000000) {offset : Option Stamp}
    (h : ∀ x, offset = some x → x.Ok) (hs : ∀ x, offset = some x → x.Signed) :
    (less t offset).unixNano = t.unixNano - ((offset.map fun s => reach s.at).getD 0) ∧
      (-2 ^ 62 - 2 ^ 51 ≤ (less t offset).sec ∧ (less t offset).sec ≤ 2 ^ 62 + 2 ^ 51) ∧ 0 ≤ (less t offset).nsec ∧
      (less t offset).nsec < 1000000000 := by
  obtain ⟨b1, b2⟩ := ht
  cases offset with
  | none =>
    show t.unixNano = _ ∧ (_ ≤ t.sec ∧ t.sec ≤ _) ∧ 0 ≤ t.nsec ∧ t.nsec < 1000000000
    exact ⟨(Int.sub_zero _).symm, ⟨by omega, by omega⟩, b2⟩
  | some o =>
    obtain ⟨a1, a2, a3⟩ := add_eq (t := t) (-reach o.at) ⟨⟨by omega, by omega⟩, b2⟩ (reach_bounds _)
    rw [show less t (some o) = t.add (wrap (-asDuration o)) from rfl, minus_offset (h o rfl) (hs o rfl)]
    exact ⟨a1, ⟨by omega, by omega⟩, a3⟩

/-- **C96**: with Go's 64-bit arithmetic the window of a scan is the one of the times that the request has. -/
theorem C96_bounds {clock : GoTime} {r : Req} (hc : clock.Near) (h : r.Ok) (hs : r.Sane) :
    ((goBounds clock r).1.unixNano, (goBounds clock r).2.unixNano) = Tm.timeBounds clock.unixNano r.asks.time := by
  obtain ⟨scope, range, filters, limit, reverse, now, offset⟩ := r
  unfold goBounds Tm.timeBounds Req.asks
  cases range with
  | some p =>
    obtain ⟨a, b⟩ := p
    obtain ⟨h1, h2⟩ := h.range a b rfl
    obtain ⟨n1, n2⟩ := hs.range a b rfl
    simp only [Option.map_some]
    rw [(asTime_eq h1 n1).1, (asTime_eq h2 n2).1]
  | none =>
    simp only [Option.map_none]
    obtain ⟨e, b1, b2⟩ := baseTime_eq hc h.now hs.now
    obtain ⟨e', b1', b2'⟩ := less_eq ⟨b1, b2⟩ h.offset hs.offset
    rw [(add_eq (-defaultRange) ⟨b1', b2'⟩ (by decide)).1, e']
    have e : (baseTime clock now).unixNano = (now.map Stamp.at).getD clock.unixNano := e
    simp only [← e]
    cases offset with
    | none => simp only [Option.map_none, Option.getD_none, Int.sub_zero]; rw [Int.sub_eq_add_neg]
    | some o => simp only [Option.map_some, Option.getD_some, Int.sub_eq_add_neg]

/-- A scan depends on the times of the request by its window, and by whether there is a time range. -/
theorem scan_congr {σ : Type} (D : Dict σ) (s : St.Store σ) (E : St.Env) {a b : St.Scan} (h1 : a.scope = b.scope) (h2 : a.filters = b.filters)
    (h3 : Tm.timeBounds E.clock a.time = Tm.timeBounds E.clock b.time) (h4 : a.time.range.isSome = b.time.range.isSome) :
    St.scan D s E a = St.scan D s E b := by
  have hv : E.views a = E.views b := by unfold St.Env.views; rw [h3]
  have hc : ∀ ids, St.chosen a ids = St.chosen b ids := by
    intro ids
    unfold St.chosen
    cases ha : a.time.range <;> cases hb : b.time.range <;> rw [ha, hb] at h4 <;> first | rfl | cases h4
  unfold St.scan St.compileFilters St.readSamples
  simp only [h1, h2, hv, hc]

theorem served_bounds {clock : GoTime} {r : Req} (hc : clock.Near) (h : r.Ok) (hs : r.Sane) (n : Int) :
    Tm.timeBounds n (served clock r).time = Tm.timeBounds clock.unixNano r.asks.time := by
  have hb := C96_bounds hc h hs
  rw [← hb]
  unfold served
  cases hr : r.range with
  | some p => rfl
  | none =>
    have h1 : (goBounds clock r).1.unixNano = (goBounds clock r).2.unixNano - defaultRange := by
      have e : Tm.timeBounds clock.unixNano r.asks.time = ((Tm.timeBounds clock.unixNano r.asks.time).2 - defaultRange, (Tm.timeBounds clock.unixNano r.asks.time).2) := by
        unfold Tm.timeBounds Req.asks
        simp only [hr, Option.map_none]
      rw [← hb] at e
      exact (Prod.mk.injEq ..).mp e |>.1
    unfold Tm.timeBounds
    simp only [Option.getD_some, h1]

/-- **C96**: the answer to a request that a client writes is the answer of the scan that the request asks for. -/
theorem C96_answer {σ : Type} (D : Dict σ) (s : St.Store σ) (E : St.Env) {clock : GoTime} {r : Req} (hc : clock.Near) (hE : E.clock = clock.unixNano)
    (h : r.Ok) (hs : r.Sane) : ∃ b, marshal rq 0 (ofReq r) = some b ∧
      (b.length ≤ 2 ^ 22 → scanSamples D s E clock b = some (St.scan D s E r.asks)) := by
  obtain ⟨b, hb, h1⟩ := C96_arrives h
  refine ⟨b, hb, fun hl => ?_⟩
  have h2 := h1 (by omega)
  rw [Option.map_eq_some_iff] at h2
  obtain ⟨v, hv, rfl⟩ := h2
  unfold scanSamples
  rw [hv, if_neg (by unfold recvLimit; omega)]
  simp only
  congr 1
  refine scan_congr D s E rfl rfl ?_ ?_
  · rw [served_bounds hc h hs, hE]
  · unfold served Req.asks
    cases (toReq v).range <;> rfl

/-- **C96**: the limit, and the direction, of a request change nothing. -/
theorem C96_limit {σ : Type} (D : Dict σ) (s : St.Store σ) (E : St.Env) (clock : GoTime) (r : Req) (limit : Nat) (reverse : Bool) :
    St.scan D s E (served clock { r with limit, reverse }) = St.scan D s E (served clock r) :=
  scan_congr D s E rfl rfl rfl rfl

/-! ## Any bytes -/

theorem vals_fits {S : Pb.Schema} {d t n : Nat} {v w : Val} (h : Fits S (d + 1) (.msg t) v) (hw : w ∈ vals n v) :
    ∃ f ∈ S t, f.num = n ∧ Fits S d f.kind w := by
  cases v with
  | msg fs u =>
    rw [Pb.fits_msg] at h
    unfold vals at hw
    simp only [List.mem_map, List.mem_filter, decide_eq_true_eq] at hw
    obtain ⟨e, ⟨he, hn⟩, rfl⟩ := hw
    obtain ⟨f, hf, h1, -, h2⟩ := h.1.1 e he
    exact ⟨f, hf, h1.trans hn, h2⟩
  | _ => cases hw

theorem num_of_fits {S : Pb.Schema} {d : Nat} {k : Pb.Kind} {n : Nat} (h : Fits S d k (.num n)) : n < k.range := by
  cases d <;> cases k <;> simpa [Fits] using h

theorem getNum_lt {S : Pb.Schema} {d t n B : Nat} {v : Val} (h : Fits S (d + 1) (.msg t) v) (hB : 0 < B) (hk : ∀ f ∈ S t, f.num = n → f.kind.range ≤ B) :
    getNum n v < B := by
  unfold getNum
  split
  · rename_i k _ e
    obtain ⟨f, hf, hn, h1⟩ := vals_fits (n := n) (w := .num k) h (by rw [e]; exact List.mem_cons_self)
    exact Nat.lt_of_lt_of_le (num_of_fits h1) (hk f hf hn)
  · exact hB

theorem getTxt_utf8 {S : Pb.Schema} {d t n : Nat} {v : Val} (h : Fits S (d + 1) (.msg t) v) (hk : ∀ f ∈ S t, f.num = n → f.kind = .string) : Utf8 (getTxt n v) := by
  unfold getTxt
  split
  · rename_i k _ e
    obtain ⟨f, hf, hn, h1⟩ := vals_fits (n := n) (w := .bytes k) h (by rw [e]; exact List.mem_cons_self)
    rw [hk f hf hn] at h1
    cases d <;> exact h1
  · exact ⟨[], rfl⟩

theorem int32_ok {n : Nat} (h : n < 2 ^ 32) : -2 ^ 31 ≤ int32 n ∧ int32 n < 2 ^ 31 := by
  unfold int32; split <;> omega
theorem int64_ok {n : Nat} (h : n < 2 ^ 64) : -2 ^ 63 ≤ int64 n ∧ int64 n < 2 ^ 63 := by
  unfold int64; split <;> omega

theorem toStamp_ok {d : Nat} {v : Val} (h : Fits rq (d + 1) (.msg 5) v) : (toStamp v).Ok :=
  ⟨int64_ok (getNum_lt h (by decide) (by decide)), int32_ok (getNum_lt h (by decide) (by decide))⟩

theorem toFilter_ok {d : Nat} {v : Val} (h : Fits rq (d + 2) (.msg 1) v) : FilterOk (toFilter v) := by
  unfold toFilter
  split
  · rename_i b l e
    obtain ⟨f, hf, hn, h1⟩ := vals_fits (n := 1) (w := b) h (by rw [e]; exact List.mem_cons_self)
    have hk : f.kind = .msg 2 := by clear h1; revert f; decide
    rw [hk] at h1
    exact ⟨int32_ok (getNum_lt h1 (by decide) (by decide)), getTxt_utf8 h1 (by decide)⟩
  · rename_i b l _ e
    obtain ⟨f, hf, hn, h1⟩ := vals_fits (n := 2) (w := b) h (by rw [e]; exact List.mem_cons_self)
    have hk : f.kind = .msg 3 := by clear h1; revert f; decide
    rw [hk] at h1
    exact ⟨int32_ok (getNum_lt h1 (by decide) (by decide)), getTxt_utf8 h1 (by decide), getTxt_utf8 h1 (by decide)⟩
  · trivial

theorem headStamp_ok {d t n : Nat} {v : Val} (h : Fits rq (d + 2) (.msg t) v) (hk : ∀ f ∈ rq t, f.num = n → f.kind = .msg 5) :
    ∀ s, (vals n v).head?.map toStamp = some s → s.Ok := by
  intro s hs
  rw [Option.map_eq_some_iff] at hs
  obtain ⟨w, hw, rfl⟩ := hs
  obtain ⟨f, hf, hn, h1⟩ := vals_fits (n := n) (w := w) h (List.mem_of_mem_head? hw)
  rw [hk f hf hn] at h1
  exact toStamp_ok h1

theorem toReq_ok {d : Nat} {v : Val} (h : Fits rq (d + 3) (.msg 0) v) : (toReq v).Ok where
  scope := int32_ok (getNum_lt h (by decide) (by decide))
  limit := getNum_lt h (by decide) (by decide)
  now := headStamp_ok h (by decide)
  offset := headStamp_ok h (by decide)
  range := by
    intro a b e
    have e : (vals 2 v).head?.map toRange = some (a, b) := e
    rw [Option.map_eq_some_iff] at e
    obtain ⟨w, hw, hr⟩ := e
    obtain ⟨f, hf, hn, h1⟩ := vals_fits (n := 2) (w := w) h (List.mem_of_mem_head? hw)
    have hk : f.kind = .msg 4 := by clear h1; revert f; decide
    rw [hk] at h1
    unfold toRange at hr
    cases hr
    exact ⟨headStamp_ok h1 (by decide), headStamp_ok h1 (by decide)⟩
  filters := by
    intro g hg
    obtain ⟨w, hw, rfl⟩ := List.mem_map.1 hg
    obtain ⟨f, hf, hn, h1⟩ := vals_fits (n := 3) (w := w) h hw
    have hk : f.kind = .msg 1 := by clear h1; revert f; decide
    rw [hk] at h1
    exact toFilter_ok h1

/-- **C96**: whatever bytes are accepted, they are a request: its strings are UTF-8, its numbers in range; written again it is the same request. -/
theorem C96_any {b : Bytes} {v : Val} (h : unmarshal rq 0 b = some v) :
    (toReq v).Ok ∧ ∃ b', marshal rq 0 (ofReq (toReq v)) = some b' ∧ (b'.length < 2 ^ 64 → (unmarshal rq 0 b').map toReq = some (toReq v)) :=
  have hk := toReq_ok (d := 9997) (Pb.C93_accepted rq_proper h).1
  ⟨hk, C96_arrives hk⟩

/-- **C96**: and they are answered as it asks, if its times are sane, and if they are at most 4 MiB. -/
theorem C96_any_answer {σ : Type} (D : Dict σ) (s : St.Store σ) (E : St.Env) {clock : GoTime} {b : Bytes} (hc : clock.Near) (hE : E.clock = clock.unixNano) :
    ((2 ^ 22 < b.length ∨ unmarshal rq 0 b = none) ∧ scanSamples D s E clock b = none) ∨
      ∃ v, b.length ≤ 2 ^ 22 ∧ unmarshal rq 0 b = some v ∧ (toReq v).Ok ∧ ((toReq v).Sane → scanSamples D s E clock b = some (St.scan D s E (toReq v).asks)) := by
  unfold scanSamples
  by_cases hl : recvLimit < b.length
  · exact .inl ⟨.inl hl, if_pos hl⟩
  rw [if_neg hl]
  cases hv : unmarshal rq 0 b with
  | none => exact .inl ⟨.inr rfl, rfl⟩
  | some v =>
    have hk := toReq_ok (d := 9997) (Pb.C93_accepted rq_proper hv).1
    refine .inr ⟨v, Nat.le_of_not_lt hl, rfl, hk, fun hs => ?_⟩
    simp only
    congr 1
    refine scan_congr D s E rfl rfl ?_ ?_
    · rw [served_bounds hc hk hs, hE]
    · unfold served Req.asks
      cases (toReq v).range <;> rfl

/-! ## Scripts -/

/-- **C96**: a time that a script gives (internal/js/scan.go:56) is the time that the scan has. -/
theorem C96_script_now {n : Int} (h : -2 ^ 62 * 10 ^ 9 ≤ n ∧ n ≤ 2 ^ 62 * 10 ^ 9) :
    (asTime (some (stampOf n))).unixNano = n ∧ (stampOf n).Ok ∧ (stampOf n).Near ∧ (stampOf n).at = n := by
  have e : (stampOf n).seconds * 1000000000 + (stampOf n).nanos = n := by unfold stampOf; simp only; omega
  have h1 : (stampOf n).Near := by unfold stampOf Stamp.Near; simp only; omega
  have h2 : (stampOf n).Ok := by unfold stampOf Stamp.Ok; simp only; omega
  have h3 : (stampOf n).at = n := by unfold Stamp.at; norm_num; exact e
  exact ⟨(unix_eq h1 h2.2).1.trans e, h2, h1, h3⟩

/-- **C96**: an offset that a script gives (internal/js/scan.go:50) is the offset that the scan has. -/
theorem C96_script_offset {n : Int} (h : -2 ^ 63 ≤ n ∧ n < 2 ^ 63) :
    asDuration (durOf n) = n ∧ (durOf n).Ok ∧ (durOf n).Signed ∧ (durOf n).at = n := by
  have e1 := Int.mul_tdiv_add_tmod n 1000000000
  have e2 := Int.tmod_lt_of_pos n (b := 1000000000) (by decide)
  have e3 := Int.lt_tmod_of_pos n (b := 1000000000) (by decide)
  have e4 : 0 ≤ n → 0 ≤ n.tmod 1000000000 := fun h => Int.tmod_nonneg _ h
  have e5 : n < 0 → n.tmod 1000000000 ≤ 0 := fun h => by
    have := Int.tmod_nonneg 1000000000 (a := -n) (by omega)
    rw [Int.neg_tmod] at this
    omega
  have e6 : (durOf n).at = n := by unfold durOf Stamp.at; simp only; omega
  have e7 : (durOf n).Ok := by unfold durOf Stamp.Ok; simp only; omega
  have e8 : (durOf n).Signed := by unfold durOf Stamp.Signed; simp only; omega
  refine ⟨?_, e7, e8, e6⟩
  rw [asDuration_eq e7 e8, e6]
  unfold clamp
  split_ifs <;> omega

/-- **C96**: the window of a scan that a script builds is that of its times; only the longest offset into the future leads elsewhere. -/
theorem C96_script {clock : GoTime} (hc : clock.Near) {s : St.Scan} (h : TimesOk s.time) (ho : s.time.offset ≠ some (-2 ^ 63)) :
    ((goBounds clock (reqOf s)).1.unixNano, (goBounds clock (reqOf s)).2.unixNano) = Tm.timeBounds clock.unixNano s.time := by
  have key := C96_bounds (r := { reqOf s with scope := 0, filters := [], limit := 0, reverse := false }) hc ?_ ?_
  · refine Eq.trans key (congrArg _ ?_)
    obtain ⟨scope, filters, ⟨range, now, offset⟩, limit, reverse⟩ := s
    simp only [Req.asks, reqOf]
    congr 1
    · cases range with
      | none => rfl
      | some p =>
        obtain ⟨a, b⟩ := p
        obtain ⟨h1, h2⟩ := h.range a b rfl
        simp only [Option.map_some, Option.getD_some, (C96_script_now h1).2.2.2, (C96_script_now h2).2.2.2]
    · cases now with
      | none => rfl
      | some n => simp only [Option.map_some, (C96_script_now (h.now n rfl)).2.2.2]
    · cases offset with
      | none => rfl
      | some d =>
        have hd := h.offset d rfl
        have hne : d ≠ -2 ^ 63 := fun e => ho (congrArg some e)
        simp only [Option.map_some, (C96_script_offset hd).2.2.2]
        unfold reach
        rw [if_neg (by omega), if_neg (by omega)]
  · refine ⟨(by simp only; decide), ?_, nofun, (by simp only; decide), ?_, ?_⟩
    · intro a b e
      simp only [reqOf, Option.map_eq_some_iff, Prod.mk.injEq] at e
      obtain ⟨p, hp, rfl, rfl⟩ := e
      obtain ⟨h1, h2⟩ := h.range p.1 p.2 hp
      exact ⟨fun x e => (by cases e; exact (C96_script_now h1).2.1), fun x e => (by cases e; exact (C96_script_now h2).2.1)⟩
    · intro x e
      simp only [reqOf, Option.map_eq_some_iff] at e
      obtain ⟨n, hn, rfl⟩ := e
      exact (C96_script_now (h.now n hn)).2.1
    · intro x e
      simp only [reqOf, Option.map_eq_some_iff] at e
      obtain ⟨n, hn, rfl⟩ := e
      exact (C96_script_offset (h.offset n hn)).2.1
  · refine ⟨?_, ?_, ?_⟩
    · intro a b e
      simp only [reqOf, Option.map_eq_some_iff, Prod.mk.injEq] at e
      obtain ⟨p, hp, rfl, rfl⟩ := e
      obtain ⟨h1, h2⟩ := h.range p.1 p.2 hp
      exact ⟨fun x e => (by cases e; exact (C96_script_now h1).2.2.1), fun x e => (by cases e; exact (C96_script_now h2).2.2.1)⟩
    · intro x e
      simp only [reqOf, Option.map_eq_some_iff] at e
      obtain ⟨n, hn, rfl⟩ := e
      exact (C96_script_now (h.now n hn)).2.2.1
    · intro x e
      simp only [reqOf, Option.map_eq_some_iff] at e
      obtain ⟨n, hn, rfl⟩ := e
      exact (C96_script_offset (h.offset n hn)).2.2.1

/-- **C96**: an offset of 292 years or more into the future leads 292 years into the past. -/
theorem C96_future {clock : GoTime} (hc : clock.Near) {s : Stamp} (h : s.Ok) (hs : s.Signed) (hb : s.at ≤ -2 ^ 63) (r : Req) (hr : r.range = none)
    (hn : r.now = none) (ho : r.offset = some s) : (goBounds clock r).2.unixNano = clock.unixNano - 2 ^ 63 := by
  unfold goBounds less baseTime
  rw [hr, hn, ho]
  simp only
  rw [minus_offset h hs]
  obtain ⟨⟨c1, c2⟩, c3, c4⟩ := hc
  rw [(add_eq (t := clock) (-reach s.at) ⟨⟨by omega, by omega⟩, c3, by omega⟩ (reach_bounds _)).1]
  unfold reach
  rw [if_pos hb]
  omega

/-! ### Concrete cases -/

/-- Metrics of a name, in a time range; the offset is one hour. -/
def exReq : Req where
  scope := 1
  range := some (some ⟨1700000000, 5⟩, none)
  filters := [.base 6 [109], .attr 1 [107] [195, 169], .unset]
  limit := 10
  reverse := true
  now := some ⟨-1, 999999999⟩
  offset := some ⟨3600, 0⟩

theorem exReq_ok : exReq.Ok where
  scope := by decide
  range := by intro a b h; cases h; exact ⟨fun s h => (by cases h; unfold Stamp.Ok; decide), nofun⟩
  filters := by
    intro f hf
    simp only [exReq, List.mem_cons, List.not_mem_nil, or_false] at hf
    rcases hf with rfl | rfl | rfl
    · exact ⟨by decide, ['m'], by decide +kernel⟩
    · exact ⟨by decide, ⟨['k'], by decide +kernel⟩, ['é'], by decide +kernel⟩
    · trivial
  limit := by decide
  now := by intro s h; cases h; unfold Stamp.Ok; decide
  offset := by intro s h; cases h; unfold Stamp.Ok; decide

theorem exReq_sane : exReq.Sane where
  range := by intro a b h; cases h; exact ⟨fun s h => (by cases h; unfold Stamp.Near; decide), nofun⟩
  now := by intro s h; cases h; unfold Stamp.Near; decide
  offset := by intro s h; cases h; unfold Stamp.Signed; decide

/-- The scan of the last quarter of an hour, an hour ago, at 10 seconds after the beginning of 1970. -/
example : (marshal rq 0 (ofReq { scope := 3, offset := some ⟨3600, 0⟩ }), (goBounds ⟨unixToInternal + 10, 0⟩ { scope := 3, offset := some ⟨3600, 0⟩ }).1.unixNano,
    (goBounds ⟨unixToInternal + 10, 0⟩ { scope := 3, offset := some ⟨3600, 0⟩ }).2.unixNano) =
      (some [8, 3, 58, 3, 8, 144, 28], -4490 * 10 ^ 9, -3590 * 10 ^ 9) := by decide +kernel

/-- Fields in another order, and one twice: the last one counts; of a time range that is written twice the parts are put together. -/
example : (unmarshal rq 0 [58, 3, 8, 144, 28, 18, 4, 10, 2, 8, 5, 8, 1, 18, 4, 18, 2, 8, 6, 8, 3]).map toReq =
    some { scope := 3, range := some (some ⟨5, 0⟩, some ⟨6, 0⟩), offset := some ⟨3600, 0⟩ } := by decide +kernel

/-- An offset of 400 years into the future leads 292 years into the past; so does one of 292 years into the past, but for a nanosecond. -/
example : (Stamp.Ok ⟨-12622780800, 0⟩ ∧ Stamp.Signed ⟨-12622780800, 0⟩ ∧ Stamp.at ⟨-12622780800, 0⟩ ≤ -2 ^ 63) ∧
    (goBounds ⟨unixToInternal, 0⟩ { offset := some ⟨-12622780800, 0⟩ }).2.unixNano = -2 ^ 63 ∧
    (goBounds ⟨unixToInternal, 0⟩ { offset := some ⟨12622780800, 0⟩ }).2.unixNano = -2 ^ 63 + 1 := by
  refine ⟨⟨by unfold Stamp.Ok; decide, by unfold Stamp.Signed; decide, by decide⟩, by decide +kernel, by decide +kernel⟩

/-- A clock of today is near. -/
example : GoTime.Near ⟨unixToInternal + 1700000000, 999999999⟩ := by unfold GoTime.Near; decide

/-- Times that are not near: Go's time wraps around, and the time of a request in the far future is before 1970. -/
example : Stamp.Ok ⟨2 ^ 63 - 1, 0⟩ ∧ (asTime (some ⟨2 ^ 63 - 1, 0⟩)).unixNano < 0 := by
  refine ⟨by unfold Stamp.Ok; decide, by decide +kernel⟩

/-- A scan of a script, at now with an offset. -/
example : TimesOk { now := some 1700000000000000000, offset := some (-1) } :=
  ⟨nofun, fun n h => (by cases h; decide), fun n h => (by cases h; decide)⟩

/-- 1969 years of 365 days, and the leap days among them. -/
example : unixToInternal = (1969 * 365 + 1969 / 4 - 1969 / 100 + 1969 / 400) * 86400 := by decide

end Verif.Rq
