import Verif.Spec.Package
import Verif.Props.Js
import Verif.Props.VisitExact
import Verif.Model.Store
import Verif.Spec.Otlp
/-!
# C85: scripts ask for what they say, and get what was answered
-/
namespace Verif.Pk
open Js (Call Zone)
open St (Scan Result Filter)

variable {parse : Bytes → Option Int} {z : Zone} {P : Vs.Hashes}

/-- Every object has a builder of its own. -/
structure Own (s : State) : Prop where
  len : s.objs.length = s.heap.length
  ptr : ∀ (i : Nat) (o : Obj), s.objs[i]? = some o → o.ptr = i

theorem named_length (heap : List Scan) (p : Nat) (ts : Int) (cls : Class) (name : Option Bytes) :
    (named parse z heap p ts cls name).length = heap.length := by
  unfold named onHeap
  split
  · split
    · rfl
    · simp
  · rfl

theorem own_step {s : State} (h : Own s) (ts : Int) (op : Op) : Own (step parse z P s ts op).1 := by
  cases op with
  | new cls name =>
    refine ⟨by simp [step, named_length, create, h.len], fun i o ho => ?_⟩
    simp only [step] at ho
    rw [List.getElem?_append] at ho
    split at ho
    · exact h.ptr i o ho
    · rename_i hi
      obtain ⟨k, hk⟩ : ∃ k, i - s.objs.length = k := ⟨_, rfl⟩
      rw [hk] at ho
      cases k with
      | zero => simp only [List.getElem?_cons_zero, Option.some.injEq] at ho; subst ho; show s.heap.length = i; have := h.len; omega
      | succ k => simp at ho
  | call i m =>
    simp only [step]
    split
    · exact h
    · exact ⟨by simp [onHeap, h.len], fun j o ho => h.ptr j o ho⟩
  | query i fn clock =>
    simp only [step]
    split
    · exact h
    · split <;> exact h

theorem own_run (ops : List (Int × Op)) : Own (run parse z P ops) := by
  unfold run
  have : ∀ s, Own s → Own (ops.foldl (fun s op => (step parse z P s op.1 op.2).1) s) := by
    induction ops with
    | nil => exact fun s h => h
    | cons op ops ih => exact fun s h => ih _ (own_step h op.1 op.2)
  exact this _ ⟨rfl, fun i o ho => by simp at ho⟩

theorem made_run (ops : List (Int × Op)) (s : State) :
    (ops.foldl (fun s op => (step parse z P s op.1 op.2).1) s).objs.length = s.objs.length + made ops := by
  induction ops generalizing s with
  | nil => rfl
  | cons op ops ih =>
    rw [List.foldl_cons, ih]
    obtain ⟨ts, op⟩ := op
    unfold made
    cases op with
    | new cls name => simp [step]; omega
    | call i m => simp only [step]; split <;> simp
    | query i fn clock =>
      simp only [step]
      split
      · simp
      · split <;> simp

/-- What an operation does to the builder and the class of an object that exists. -/
theorem step_obj {s : State} (h : Own s) {i : Nat} {c : Class} {a : Scan} (ho : s.objs[i]? = some ⟨c, i⟩) (ha : s.heap[i]? = some a) (ts : Int) (op : Op) :
    (step parse z P s ts op).1.objs[i]? = some ⟨c, i⟩ ∧
    (step parse z P s ts op).1.heap[i]? = some ((callsOn i [(ts, op)]).foldl (fun s m => Js.call parse z s m.1 m.2.call) a) := by
  have hi : i < s.heap.length := by
    rcases Nat.lt_or_ge i s.heap.length with h1 | h1
    · exact h1
    · rw [List.getElem?_eq_none h1] at ha; cases ha
  have hj : i < s.objs.length := by rw [h.len]; exact hi
  cases op with
  | new cls name =>
    have hne : s.heap.length ≠ i := by omega
    simp only [step, callsOn, List.filterMap_cons, List.filterMap_nil, List.foldl_nil]
    refine ⟨by rw [List.getElem?_append_left hj]; exact ho, ?_⟩
    have e : (create parse z s.heap ts cls.resource)[i]? = some a := by
      unfold create; rw [List.getElem?_append_left hi]; exact ha
    unfold named onHeap
    split
    · split
      · exact e
      · rw [List.getElem?_modify_ne _ _ hne]; exact e
    · exact e
  | call j m =>
    simp only [step, callsOn, List.filterMap_cons, List.filterMap_nil]
    by_cases hji : j = i
    · subst hji
      rw [ho]
      simp [onHeap, ha]
      exact List.getElem?_eq_getElem hj ▸ ho
    · rw [if_neg hji]
      cases hoj : s.objs[j]? with
      | none => exact ⟨ho, ha⟩
      | some o =>
        have hp := h.ptr j o hoj
        refine ⟨ho, ?_⟩
        simp only [onHeap, List.foldl_nil]
        rw [List.getElem?_modify_ne _ _ (by rw [hp]; exact hji)]
        exact ha
  | query j fn clock =>
    simp only [step, callsOn, List.filterMap_cons, List.filterMap_nil, List.foldl_nil]
    split
    · exact ⟨ho, ha⟩
    · split <;> exact ⟨ho, ha⟩

theorem callsOn_cons (i : Nat) (op : Int × Op) (ops : List (Int × Op)) : callsOn i (op :: ops) = callsOn i [op] ++ callsOn i ops := by
  unfold callsOn
  rw [← List.filterMap_append]; rfl

theorem run_obj (ops : List (Int × Op)) {s : State} (h : Own s) {i : Nat} {c : Class} {a : Scan} (ho : s.objs[i]? = some ⟨c, i⟩) (ha : s.heap[i]? = some a) :
    (ops.foldl (fun s op => (step parse z P s op.1 op.2).1) s).objs[i]? = some ⟨c, i⟩ ∧
    (ops.foldl (fun s op => (step parse z P s op.1 op.2).1) s).heap[i]? =
      some ((callsOn i ops).foldl (fun s m => Js.call parse z s m.1 m.2.call) a) := by
  induction ops generalizing s a with
  | nil => exact ⟨ho, ha⟩
  | cons op ops ih =>
    obtain ⟨h1, h2⟩ := step_obj (P := P) h ho ha op.1 op.2
    obtain ⟨h3, h4⟩ := ih (own_step h op.1 op.2) h1 h2
    refine ⟨h3, ?_⟩
    rw [List.foldl_cons, h4, callsOn_cons i op ops, List.foldl_append]

/-- The calls of the builder that a constructor makes after `Create`. -/
def first (ts : Int) : Class → Option Bytes → List (Int × Call)
  | .metrics, some n => if n = [] then [] else [(ts, .name n)]
  | _, _ => []

theorem new_obj {s : State} (h : Own s) (ts : Int) (cls : Class) (name : Option Bytes) :
    (step parse z P s ts (.new cls name)).1.objs[s.objs.length]? = some ⟨cls, s.objs.length⟩ ∧
    (step parse z P s ts (.new cls name)).1.heap[s.objs.length]? = some (Js.build parse z cls.resource (first ts cls name)) := by
  have hl := h.len
  refine ⟨by simp [step, hl], ?_⟩
  simp only [step]
  rw [hl]
  have e : (create parse z s.heap ts cls.resource)[s.heap.length]? = some (Js.call parse z { scope := Res.unknown } 0 (.resource cls.resource)) := by
    unfold create; simp; rfl
  cases cls <;> cases name <;> first | exact e | skip
  rename_i n
  by_cases hn : n = []
  · simp only [named, first, if_pos hn]; exact e
  · simp only [named, first, if_neg hn, onHeap]
    rw [List.getElem?_modify_eq, e]
    rfl

theorem run_append (a b : List (Int × Op)) : run parse z P (a ++ b) = b.foldl (fun s op => (step parse z P s op.1 op.2).1) (run parse z P a) := by
  unfold run; rw [List.foldl_append]

/-- The builder of an object is the one that the calls on it build. -/
theorem run_build (pre post : List (Int × Op)) (ts : Int) (cls : Class) (name : Option Bytes) :
    (run parse z P (pre ++ (ts, .new cls name) :: post)).objs[made pre]? = some ⟨cls, made pre⟩ ∧
    (run parse z P (pre ++ (ts, .new cls name) :: post)).heap[made pre]? =
      some (Js.build parse z cls.resource (first ts cls name ++ (callsOn (made pre) post).map fun m => (m.1, m.2.call))) := by
  have hm : (run parse z P pre).objs.length = made pre := by unfold run; rw [made_run]; exact Nat.zero_add _
  have h0 := own_run (parse := parse) (z := z) (P := P) pre
  obtain ⟨h1, h2⟩ := new_obj (parse := parse) (z := z) (P := P) h0 ts cls name
  rw [hm] at h1 h2
  obtain ⟨h3, h4⟩ := run_obj (P := P) post (own_step h0 ts (.new cls name)) h1 h2
  rw [run_append, List.foldl_cons]
  refine ⟨h3, h4.trans ?_⟩
  unfold Js.build
  rw [List.foldl_append, List.foldl_map]

/-! ## From builder calls to methods -/

theorem lastOf_calls {β : Type} (f : Call → Option β) (g : Method → Option β) (hfg : ∀ m, f m.call = g m) (ts : Int) (cls : Class) (name : Option Bytes)
    (hn : ∀ n, f (.name n) = none) (ms : List (Int × Method)) : Js.lastOf f (first ts cls name ++ ms.map fun m => (m.1, m.2.call)) = lastOf g ms := by
  unfold Js.lastOf lastOf
  rw [List.filterMap_append, List.filterMap_map]
  have e : (first ts cls name).filterMap (fun c => f c.2) = [] := by
    unfold first; split
    · split
      · rfl
      · simp [hn]
    · rfl
  rw [e, List.nil_append]
  congr 1
  apply List.filterMap_congr
  intro m _
  exact hfg m.2

theorem first_filters (ts : Int) (cls : Class) (name : Option Bytes) :
    (first ts cls name).filterMap (fun c => Js.filterOf c.2) = nameFilter cls name := by
  cases cls <;> cases name <;> first | rfl | skip
  rename_i n
  by_cases hn : n = []
  · simp only [first, nameFilter, if_pos hn, List.filterMap_nil]
  · simp only [first, nameFilter, if_neg hn]; rfl

theorem asks (ok : z.Ok) (h15 : parse (ascii "15m") = some (15 * 60 * 1000000000)) (ts : Int) (cls : Class) (name : Option Bytes) (ms : List (Int × Method))
    (hts : -2 ^ 63 ≤ z.wall ts ∧ z.wall ts < 2 ^ 63) (hms : ∀ m ∈ ms, -2 ^ 63 ≤ z.wall m.1 ∧ z.wall m.1 < 2 ^ 63) :
    Asks parse z cls name ms (Js.build parse z cls.resource (first ts cls name ++ ms.map fun m => (m.1, m.2.call))) := by
  have h15' : parse [49, 53, 109] = some (15 * 60 * 1000000000) := h15
  obtain ⟨h1, h2, h3, h4, h5, h6, h7⟩ := Js.C40_builder (parse := parse) ok cls.resource (first ts cls name ++ ms.map fun m => (m.1, m.2.call))
    (by
      intro c hc
      rcases List.mem_append.1 hc with hc | hc
      · have : c.1 = ts := by
          unfold first at hc; split at hc
          · split at hc
            · cases hc
            · rw [List.mem_singleton.1 hc]
          · cases hc
        rw [this]; exact hts
      · obtain ⟨m, hm, rfl⟩ := List.mem_map.1 hc
        exact hms m hm)
  have hfirst : ∀ c ∈ first ts cls name, ∃ n, c.2 = .name n := by
    intro c hc
    unfold first at hc; split at hc
    · split at hc
      · cases hc
      · exact ⟨_, by rw [List.mem_singleton.1 hc]⟩
    · cases hc
  have hcons : (0, Call.resource cls.resource) :: (first ts cls name ++ ms.map fun m => (m.1, m.2.call)) = [(0, Call.resource cls.resource)] ++ (first ts cls name ++ ms.map fun m => (m.1, m.2.call)) := rfl
  refine ⟨?_, ?_, ?_, ?_, ?_, ?_, ?_⟩
  · rw [h1]
    unfold Js.lastOf
    rw [hcons, List.filterMap_append]
    have e : (first ts cls name ++ ms.map fun m => (m.1, m.2.call)).filterMap (fun c => Js.signalOf c.2) = [] := by
      rw [List.filterMap_eq_nil_iff]
      intro c hc
      rcases List.mem_append.1 hc with hc | hc
      · obtain ⟨n, hn⟩ := hfirst c hc; rw [hn]; rfl
      · obtain ⟨m, -, rfl⟩ := List.mem_map.1 hc
        obtain ⟨t, m⟩ := m
        cases m <;> rfl
    rw [e]
    cases cls <;> decide +kernel
  · rw [h6, List.filterMap_append, List.filterMap_map]
    rw [first_filters]
    congr 1
    · apply List.filterMap_congr
      intro m _
      obtain ⟨t, m⟩ := m
      cases m <;> rfl
  · rw [h2, lastOf_calls Js.limitOf limitOf (fun m => by cases m <;> rfl) ts cls name (fun _ => rfl)]
    rfl
  · rw [h3, lastOf_calls (Js.offsetOf parse) (offsetOf parse) (fun m => by cases m <;> rfl) ts cls name (fun _ => rfl)]
  · rw [h4, lastOf_calls Js.nowOf nowOf (fun m => by cases m <;> rfl) ts cls name (fun _ => rfl)]
  · rw [h5, decide_eq_true_eq]
    constructor
    · rintro ⟨c, hc, e⟩
      rcases List.mem_append.1 hc with hc | hc
      · obtain ⟨n, hn⟩ := hfirst c hc; rw [hn] at e; cases e
      · obtain ⟨m, hm, rfl⟩ := List.mem_map.1 hc
        refine ⟨m, hm, ?_⟩
        obtain ⟨t, m⟩ := m
        cases m <;> first | rfl | cases e
    · rintro ⟨m, hm, e⟩
      exact ⟨(m.1, m.2.call), List.mem_append_right _ (List.mem_map.2 ⟨m, hm, rfl⟩), by rw [e]; rfl⟩
  · have e1 : (first ts cls name).filter (fun c => Js.setsWindow parse c.2) = [] := by
      rw [List.filter_eq_nil_iff]
      intro c hc
      obtain ⟨n, hn⟩ := hfirst c hc; rw [hn]; simp [Js.setsWindow]
    have e2 : ∀ m : Method, Js.setsWindow parse m.call = setsWindow parse m := by
      intro m
      cases m <;> first | rfl | (simp only [Method.call, Js.setsWindow, setsWindow, h15']; rfl)
    rw [List.filter_append, e1, List.nil_append, List.filter_map, List.getLast?_map] at h7
    have e3 : (ms.filter ((fun c : Int × Call => Js.setsWindow parse c.2) ∘ fun m => (m.1, m.2.call))) = ms.filter fun m => setsWindow parse m.2 := by
      apply List.filter_congr
      intro m _
      exact e2 m.2
    rw [e3] at h7
    cases hl : (ms.filter fun m => setsWindow parse m.2).getLast? with
    | none => rw [hl] at h7; exact h7
    | some m =>
      rw [hl] at h7
      obtain ⟨x, y, hr, hw⟩ := h7
      refine ⟨x, y, hr, ?_⟩
      obtain ⟨t, m⟩ := m
      cases m <;> first | exact hw | skip
      case latest =>
        obtain ⟨w1, v, w2, w3⟩ := hw
        rw [h15'] at w2
        cases w2
        exact ⟨w1, by rw [w3, Js.before, if_neg (by decide)]⟩

/-! ## C85 -/

/-- **C85.** Whatever else the script does, before, between and after, with other query objects and with exceptions that it
catches: `query()` on the object that `new cls(name)` made hands to the engine the scan that the calls on that object ask for, in
order, and gets the part of the answer for its class. -/
theorem C85_query (ok : z.Ok) (h15 : parse (ascii "15m") = some (15 * 60 * 1000000000)) (pre post : List (Int × Op)) (ts : Int) (cls : Class) (name : Option Bytes)
    (hts : ∀ op ∈ (ts, Op.new cls name) :: post, -2 ^ 63 ≤ z.wall op.1 ∧ z.wall op.1 < 2 ^ 63) :
    ∃ a, Asks parse z cls name (callsOn (made pre) post) a ∧
      ∀ t fn clock, outcome parse z P (pre ++ (ts, .new cls name) :: post) t (.query (made pre) fn clock) = got cls (Js.jsScan P fn clock a) := by
  obtain ⟨h1, h2⟩ := run_build (parse := parse) (z := z) (P := P) pre post ts cls name
  refine ⟨_, asks ok h15 ts cls name (callsOn (made pre) post) (hts _ List.mem_cons_self) ?_, fun t fn clock => ?_⟩
  · intro m hm
    unfold callsOn at hm
    obtain ⟨op, hop, e⟩ := List.mem_filterMap.1 hm
    obtain ⟨t, op⟩ := op
    cases op with
    | call j m' =>
      simp only at e
      split at e
      · cases e; exact hts _ (List.mem_cons_of_mem _ hop)
      · cases e
    | new _ _ => cases e
    | query _ _ _ => cases e
  · unfold outcome
    simp only [step, h1, h2]

/-- **C85**, exceptions: a method of an object that exists throws exactly if it takes a duration and is given one that cannot be
parsed; making an object never throws. -/
theorem C85_throws (h15 : parse (ascii "15m") = some (15 * 60 * 1000000000)) (ops : List (Int × Op)) (ts : Int) :
    (∀ i m, i < made ops → (outcome parse z P ops ts (.call i m) = .thrown ↔ ∃ d, (m = .offset d ∨ m = .ago d) ∧ parse d = none) ∧
      (outcome parse z P ops ts (.call i m) ≠ .thrown → outcome parse z P ops ts (.call i m) = .this)) ∧
    ∀ cls name, outcome parse z P ops ts (.new cls name) = .this := by
  have h15' : parse [49, 53, 109] = some (15 * 60 * 1000000000) := h15
  refine ⟨fun i m hi => ?_, fun _ _ => rfl⟩
  have hm : (run parse z P ops).objs.length = made ops := by unfold run; rw [made_run]; exact Nat.zero_add _
  have he : outcome parse z P ops ts (.call i m) = if fails parse m.call then .thrown else .this := by
    unfold outcome
    simp only [step]
    rw [List.getElem?_eq_getElem (by omega)]
    rfl
  rw [he]
  constructor
  · cases m <;> simp [fails, Method.call, h15']
  · cases hf : fails parse m.call <;> simp

/-- **C85**, what `query()` returns: an error is thrown; the message of the class if the answer has it, as it is; otherwise `null`. -/
theorem C85_value (cls : Class) (r : Result) :
    (r = .err → got cls r = .thrown) ∧ (r = .panic → got cls r = .crashed) ∧
    (∀ rs, r = .data (some (.metrics rs)) → got cls r = .value (if cls = .metrics then .metrics rs else .null)) ∧
    (∀ rs, r = .data (some (.logs rs)) → got cls r = .value (if cls = .logs then .logs rs else .null)) ∧
    (∀ rs, r = .data (some (.traces rs)) → got cls r = .value (if cls = .trace then .traces rs else .null)) ∧
    (r = .data (some .none) → got cls r = .value .null) := by
  refine ⟨?_, ?_, ?_, ?_, ?_, ?_⟩ <;> (intros; subst_vars; cases cls <;> rfl)

/-! ### Nothing of the answer is lost -/

/-- Of this signal, or without records. -/
def Kind (k : Int) (d : Data) : Prop := d.signal = some k ∨ d = .none

theorem kind_project (k : Int) (d : Data) : Kind k (Df.project k d) := by
  unfold Kind Df.project
  cases d <;> simp only
  case none => exact .inr trivial
  all_goals
    split
    · rename_i e; rw [e]; exact .inl rfl
    · exact .inr rfl

theorem kind_rows {k : Int} {rows : List Data} : ∀ {is : List Nat} {l}, Df.readRows k rows is = .ok l → ∀ e ∈ l, Kind k e.2
  | [], _, h => by cases h; simp
  | i :: is, l, h => by
    simp only [Df.readRows] at h
    split at h
    · cases h
    · split at h
      · rename_i l' hl'
        cases h
        intro e he
        rcases List.mem_cons.1 he with rfl | he
        · exact kind_project k _
        · exact kind_rows hl' e he
      · rename_i hne; exact absurd h (by intro h; exact hne _ h)

theorem kind_unmarshal {f : Df.Frame} {fault : Bytes → Bool} {k : Int} {w : Bm} : ∀ {vs : List Bytes} {l}, Df.unmarshal f fault k w vs = .ok l → ∀ e ∈ l, Kind k e.2
  | [], _, h => by cases h; simp
  | v :: vs, l, h => by
    simp only [Df.unmarshal] at h
    split at h
    · rename_i l1 h1
      split at h
      · rename_i l2 h2
        cases h
        intro e he
        rcases List.mem_append.1 he with he | he
        · unfold Df.readView at h1
          split at h1
          · cases h1
          · split at h1
            · cases h1; cases he
            · split at h1
              · cases h1; cases he
              · exact kind_rows h1 e he
        · exact kind_unmarshal h2 e he
      · rename_i hne; exact absurd h (by intro h; exact hne _ h)
    · rename_i hne; exact absurd h (by intro h; exact hne _ h)

theorem kind_collapse {Q : Dt.Par} {perm : AMap Nat Nat → AMap Nat Nat} {k : Int} {ds : List Data} {d : Data} (hk : ∀ x ∈ ds, Kind k x)
    (h : Dt.collapse Q perm ds = some (some d)) : Kind k d := by
  unfold Dt.collapse at h
  split at h
  · cases h
  · cases h; exact hk _ (by simp)
  · have h0 := hk _ (List.mem_cons_self)
    split at h
    · obtain ⟨r, -, hr⟩ := Option.map_eq_some_iff.1 h
      cases hr
      rcases h0 with h0 | h0
      · exact .inl h0
      · cases h0
    · obtain ⟨r, -, hr⟩ := Option.map_eq_some_iff.1 h
      cases hr
      rcases h0 with h0 | h0
      · exact .inl h0
      · cases h0
    · obtain ⟨r, -, hr⟩ := Option.map_eq_some_iff.1 h
      cases hr
      rcases h0 with h0 | h0
      · exact .inl h0
      · cases h0
    · cases h

theorem kind_zero {k : Int} {d : Data} (h : Dt.zero k = some d) : Kind k d := by
  unfold Dt.zero at h
  split at h
  · rename_i e; cases h; exact .inl (by rw [e]; rfl)
  · split at h
    · rename_i e; cases h; exact .inl (by rw [e]; rfl)
    · split at h
      · rename_i e; cases h; exact .inl (by rw [e]; rfl)
      · cases h

/-- The answer of a store to a scan has the signal of the scan, or nothing. -/
theorem kind_scan {σ : Type} {D : Dict σ} {s : St.Store σ} {E : St.Env} {sc : Scan} {d : Data} (h : St.scan D s E sc = .data (some d)) : Kind sc.scope d := by
  unfold St.scan at h
  split at h
  · cases h
  · split at h
    · simp only [Result.data.injEq] at h; exact kind_zero h
    · split at h
      · cases h
      · split at h
        · simp only [Result.data.injEq] at h; exact kind_zero h
        · split at h
          · simp only [Result.data.injEq] at h; exact kind_zero h
          · unfold St.readSamples at h
            split at h
            · split at h
              · cases h
              · cases h
              · rename_i l hl
                split at h
                · cases h
                · rename_i d' hd
                  simp only [Result.data.injEq] at h
                  subst h
                  refine kind_collapse (fun x hx => ?_) hd
                  obtain ⟨e, he, rfl⟩ := List.mem_map.1 hx
                  exact kind_unmarshal hl e he
            · cases h

theorem kind_visit {A : Vs.All} {k : Int} {d out : Data} (hk : Kind k d) (h : Vs.visit P A d = some out) : Kind k out := by
  cases d <;> simp only [Vs.visit] at h
  case none => cases h; exact .inr rfl
  all_goals
    split at h
    · cases h
    · cases h
      rcases hk with hk | hk
      · exact .inl hk
      · cases hk

theorem kind_jsScan {fn : Scan → Result} {clock : Int} {a : Scan} {d : Data} (hk : ∀ d, fn a = .data (some d) → Kind a.scope d)
    (h : Js.jsScan P (some fn) clock a = .data (some d)) : Kind a.scope d := by
  unfold Js.jsScan at h
  simp only at h
  split at h
  · cases h
  · cases h
  · cases h
  · rename_i d0 hd0
    split at h
    · simp only [Result.data.injEq] at h; subst h; exact hk _ hd0
    · split at h
      · cases h
      · rename_i d1
        split at h
        · cases h
        · rename_i out ho
          simp only [Result.data.injEq, Option.some.injEq] at h
          subst h
          exact kind_visit (hk _ hd0) ho

theorem get_payload {cls : Class} {d : Data} (h : Kind cls.signal d) : (get cls d).payload = d := by
  rcases h with h | h
  · cases cls <;> cases d <;> first | rfl | simp [Data.signal, Class.signal, Res.metrics, Res.logs, Res.traces] at h
  · subst h; cases cls <;> rfl

/-- **C85**, with the store of a server: whatever its history and state, a query object of `rq query` that asks for a scan gets all
of the (trimmed) answer: the answer is of its own signal, and the value is that message, or there is no record in the answer and the
value is `null`. -/
theorem C85_whole {σ : Type} (D : Dict σ) (s : St.Store σ) (E : St.Env) (clock : Int) {name : Option Bytes} {cls : Class} {ms : List (Int × Method)} {a : Scan}
    (ha : Asks parse z cls name ms a) {d : Data} (hd : Js.queryScan P (St.scan D s E) clock a = .data (some d)) :
    ∃ v, got cls (Js.queryScan P (St.scan D s E) clock a) = .value v ∧ v.payload = d ∧ (v = .null → Vs.entries d = []) := by
  have hk : Kind cls.signal d := by
    rw [← ha.signal]
    refine kind_jsScan (fn := fun a => Js.rpc (St.scan D s E a)) (fun d hd => ?_) hd
    cases hs : St.scan D s E a with
    | data o =>
      rw [hs] at hd
      cases o with
      | none => cases hd; exact .inr rfl
      | some d' => cases hd; exact kind_scan hs
    | err => rw [hs] at hd; cases hd
    | panic => rw [hs] at hd; cases hd
    | undefined => rw [hs] at hd; cases hd
  refine ⟨get cls d, by rw [hd]; rfl, get_payload hk, fun hv => ?_⟩
  have := get_payload hk
  rw [hv] at this
  rw [← this]; rfl

/-! ### A script -/

/-- Two objects, used in turn; the second asks for a name in its constructor; a duration that cannot be parsed is thrown out. -/
def demo : List (Int × Op) :=
  [(1700000000000000000, .new .logs none), (1700000000000000000, .new .metrics (some (ascii "cpu"))),
   (1700000000000000000, .call 0 (.logLevel (ascii "ERROR"))), (1700000000000000001, .call 1 .latest), (1700000000000000002, .call 0 (.ago (ascii "x"))),
   (1700000000000000003, .call 0 (.limit 5)), (1700000000000000004, .call 1 .reverse)]

def demoParse (t : Bytes) : Option Int := if t = ascii "15m" then some (15 * 60 * 1000000000) else none

example : (run demoParse Zone.utc ⟨fun _ => 0, fun _ => 0⟩ demo).heap =
    [{ scope := 3, filters := [.base Pfx.logsLevel (ascii "ERROR")], limit := 5 },
     { scope := 1, filters := [.base Pfx.name (ascii "cpu")], time := { range := some (1699999100000000001, 1700000000000000001) }, reverse := true }] := by
  simp [run, demo, step, named, create, onHeap, Js.call, Class.resource, Js.textMetrics, Js.textLogs, Js.base, Js.rangeTS, Method.call, demoParse, Js.toUint64, ascii]
  decide

/-- The hypotheses of `C85_query` for the second object of that script: it asks for metrics by that name of the last 15 minutes,
backwards, whatever is called on the first. -/
example : ∃ a, Asks demoParse Zone.utc .metrics (some (ascii "cpu")) [(1700000000000000001, .latest), (1700000000000000004, .reverse)] a ∧
    ∀ t fn clock, outcome demoParse Zone.utc Vs.xx demo t (.query 1 fn clock) = got .metrics (Js.jsScan Vs.xx fn clock a) :=
  C85_query (P := Vs.xx) (z := Zone.utc) (parse := demoParse) (Js.Zone.fixed_ok (off := 0) (by decide) (by decide)) (by decide +kernel)
    [(1700000000000000000, .new .logs none)] (demo.drop 2) 1700000000000000000 .metrics (some (ascii "cpu"))
    (by
      have hw : ∀ t, Zone.utc.wall t = t := fun t => by unfold Zone.wall Zone.utc; simp
      simp only [hw]
      intro op hop
      simp only [demo, List.drop_succ_cons, List.drop_zero, List.mem_cons, List.not_mem_nil, or_false] at hop
      rcases hop with rfl | rfl | rfl | rfl | rfl | rfl <;> simp)

/-- The call with a duration that cannot be parsed throws; the one before does not. -/
example : outcome demoParse Zone.utc Vs.xx (demo.take 4) 5 (.call 0 (.ago (ascii "x"))) = .thrown ∧
    outcome demoParse Zone.utc Vs.xx (demo.take 3) 5 (.call 1 .latest) = .this := by
  constructor <;> decide +kernel

/-- An answer of the wrong kind is `null`; of the right kind, it is there. -/
example (rs : List (ResourceG LogRecord)) :
    outcome demoParse Zone.utc Vs.xx [(0, .new .logs none)] 5 (.query 0 (some fun _ => .data (some (.logs rs))) 9) = .value (.logs rs) ∧
    outcome demoParse Zone.utc Vs.xx [(0, .new .trace none)] 5 (.query 0 (some fun _ => .data (some (.logs rs))) 9) = .value .null :=
  ⟨rfl, rfl⟩

/-- The hypotheses of `C85_whole`: a new store answers with an empty message of the signal. -/
example (E : St.Env) (hE : E.findFault = fun _ => false) : ∃ a d, Asks demoParse Zone.utc .logs none [] a ∧
    Js.queryScan Vs.xx (St.scan listDict (St.Store.start [] (fun _ => none) []) E) 7 a = .data (some d) := by
  refine ⟨{ scope := 3 }, .logs [], ⟨rfl, rfl, rfl, rfl, rfl, by simp, rfl⟩, ?_⟩
  have h : St.compileFilters listDict (St.Store.start (σ := List Bytes) [] (fun _ => none) []).ctx.st E { scope := 3 } = some [] := by
    simp [St.compileFilters, St.find, hE, listDict, St.Store.start]
  unfold Js.queryScan St.scan
  simp only [Js.jsScan]
  rw [h]
  rfl

end Verif.Pk
