import Verif.Spec.WireHash
import Verif.Props.Wire
import Verif.Props.Confusion
/-!
# C94: what is hashed of resources and scopes tells them apart
-/
namespace Verif.Pb
open Vs (resAttrs scName scVersion scAttrs)
open Dt (resWords scWords hr hs NoCollision resTexts scTexts)
variable {α : Type}

theorem delimited_inj {s t a b : Bytes} (hs : s.length < 2 ^ 64) (ht : t.length < 2 ^ 64) (h : delimited s ++ a = delimited t ++ b) : s = t ∧ a = b := by
  have h1 := readBytes_ok (s := s) ⟨_, varint_ok hs, rfl⟩ a
  have h2 := readBytes_ok (s := t) ⟨_, varint_ok ht, rfl⟩ b
  rw [show varint s.length ++ s = delimited s from rfl, h, show delimited t = varint t.length ++ t from rfl, h2] at h1
  simpa [eq_comm] using h1

theorem tag1 : tag 1 2 = [10] := by decide +kernel
theorem tag2 : tag 2 2 = [18] := by decide +kernel

/-- What follows an attribute. -/
def Starts (b : Bytes) : Prop := b = [] ∨ ∃ r, b = 10 :: r

theorem starts_kv {kv : KeyValue} (h : kv.key ≠ []) (r : Bytes) : Starts (kvBytes kv ++ r) := by
  unfold kvBytes
  rw [if_neg h, tag1]
  exact .inr ⟨_, rfl⟩

theorem starts_list {l : List KeyValue} (h : AttrsOk l) : Starts (l.flatMap kvBytes) := by
  cases l with
  | nil => exact .inl rfl
  | cons kv l => rw [List.flatMap_cons]; exact starts_kv (h kv (by simp)).2 _

theorem valueBytes_inj {v w : AnyValue} (hv : ∀ raw, v = .other raw → ∀ s : Bytes, s.length < 2 ^ 64 → raw ≠ valueBytes (.str s))
    (hw : ∀ raw, w = .other raw → ∀ s : Bytes, s.length < 2 ^ 64 → raw ≠ valueBytes (.str s)) (hl : (valueBytes v).length < 2 ^ 64)
    (h : valueBytes v = valueBytes w) : v = w := by
  have len : ∀ s : Bytes, (valueBytes (.str s)).length < 2 ^ 64 → s.length < 2 ^ 64 := by
    intro s hs
    unfold valueBytes delimited at hs
    simp only [List.length_append] at hs
    omega
  cases v with
  | str s =>
    cases w with
    | str t =>
      have hs := len s hl
      have ht := len t (by rw [← h]; exact hl)
      have := (delimited_inj (a := []) (b := []) hs ht (by simpa [valueBytes] using h)).1
      rw [this]
    | other raw => exact absurd h.symm (hw raw rfl s (len s hl))
  | other raw =>
    cases w with
    | str t => exact absurd h (hv raw rfl t (len t (by rw [← h]; exact hl)))
    | other raw' => rw [show raw = raw' from h]

theorem kv_inj {x y : KeyValue} {a b : Bytes} (hx : KvOk x) (hy : KvOk y) (hx' : x.key ≠ []) (hy' : y.key ≠ []) (ha : Starts a) (hb : Starts b)
    (h : kvBytes x ++ a = kvBytes y ++ b) : x = y ∧ a = b := by
  obtain ⟨k, v⟩ := x
  obtain ⟨k', v'⟩ := y
  unfold kvBytes at h
  rw [if_neg hx', if_neg hy', tag1, tag2] at h
  simp only [List.append_assoc, List.cons_append, List.nil_append, List.cons.injEq, true_and] at h
  obtain ⟨e, h'⟩ := delimited_inj hx.key hy.key h
  change k = k' at e
  subst e
  clear h
  rename' h' => h
  have no : ∀ {c d : Bytes}, Starts c → c ≠ 18 :: d := by
    rintro c d (rfl | ⟨r, rfl⟩) h
    · cases h
    · injection h with h; revert h; decide
  cases v with
  | none =>
    cases v' with
    | none => exact ⟨rfl, h⟩
    | some w => exact absurd h (no ha)
  | some v =>
    cases v' with
    | none => exact absurd h.symm (no hb)
    | some w =>
      simp only [List.cons_append, List.cons.injEq, true_and] at h
      obtain ⟨h1, h2⟩ := delimited_inj (hx.value v rfl) (hy.value w rfl) h
      refine ⟨?_, h2⟩
      rw [valueBytes_inj (fun r e => hx.other r (by rw [e])) (fun r e => hy.other r (by rw [e])) (hx.value v rfl) h1]

/-- **C94**: lists of attributes with keys are written differently if they are different: another attribute, another order, another number. -/
theorem C94_attributes {l l' : List KeyValue} (hl : AttrsOk l) (hl' : AttrsOk l') : l.flatMap kvBytes = l'.flatMap kvBytes ↔ l = l' := by
  refine ⟨fun h => ?_, fun h => by rw [h]⟩
  have ne : ∀ {kv : KeyValue} {r : Bytes}, kv.key ≠ [] → kvBytes kv ++ r ≠ [] := by
    intro kv r hk
    unfold kvBytes
    rw [if_neg hk, tag1]
    nofun
  induction l generalizing l' with
  | nil =>
    cases l' with
    | nil => rfl
    | cons kv l' => exact absurd h.symm (ne (hl' kv (by simp)).2)
  | cons x l ih =>
    cases l' with
    | nil => exact absurd h (ne (hl x (by simp)).2)
    | cons y l' =>
      have t : AttrsOk l := fun kv hk => hl kv (by simp [hk])
      have t' : AttrsOk l' := fun kv hk => hl' kv (by simp [hk])
      rw [List.flatMap_cons, List.flatMap_cons] at h
      obtain ⟨h1, h2⟩ := kv_inj (hl x (by simp)).1 (hl' y (by simp)).1 (hl x (by simp)).2 (hl' y (by simp)).2 (starts_list t) (starts_list t') h
      rw [h1, ih t t' h2]

/-- A text without line feeds and attributes: both can be told from the concatenation. -/
theorem line_inj {u v a b : Bytes} (hu : OneLine u) (hv : OneLine v) (ha : Starts a) (hb : Starts b) (h : u ++ a = v ++ b) : u = v ∧ a = b := by
  induction u generalizing v with
  | nil =>
    cases v with
    | nil => exact ⟨rfl, h⟩
    | cons c v =>
      rcases ha with rfl | ⟨r, rfl⟩
      · cases h
      · injection h with h1 h2
        exact absurd (h1 ▸ List.mem_cons_self) hv
  | cons c u ih =>
    cases v with
    | nil =>
      rcases hb with rfl | ⟨r, rfl⟩
      · cases h
      · injection h with h1 h2
        exact absurd (h1 ▸ List.mem_cons_self) hu
    | cons d v =>
      injection h with h1 h2
      obtain ⟨h3, h4⟩ := ih (fun m => hu (List.mem_cons_of_mem _ m)) (v := v) (fun m => hv (List.mem_cons_of_mem _ m)) h2
      rw [h1, h3]; exact ⟨rfl, h4⟩

/-- **C94**: two resources read the same only if they have the same schema URL and the same attributes in the same order. -/
theorem C94_resource_words (P : Dt.Par) (hP : P.marshal = kvBytes) {r r' : ResourceG α} (h : ResOk r) (h' : ResOk r') :
    resWords P r = resWords P r' ↔ r.schema = r'.schema ∧ resAttrs r.resource = resAttrs r'.resource := by
  unfold resWords
  rw [hP]
  refine ⟨fun e => ?_, fun ⟨e1, e2⟩ => by rw [e1, e2]⟩
  obtain ⟨h1, h2⟩ := line_inj h.schema h'.schema (starts_list h.attrs) (starts_list h'.attrs) e
  exact ⟨h1, (C94_attributes h.attrs h'.attrs).1 h2⟩

/-- **C94**: two scopes read the same exactly if they have the same attributes and schema URL, name and version run together are the same. -/
theorem C94_scope_words (P : Dt.Par) (hP : P.marshal = kvBytes) {s s' : ScopeG α} (h : ScopeOk s) (h' : ScopeOk s') :
    scWords P s = scWords P s' ↔ s.schema ++ scName s.scope ++ scVersion s.scope = s'.schema ++ scName s'.scope ++ scVersion s'.scope ∧
      scAttrs s.scope = scAttrs s'.scope := by
  unfold scWords
  rw [hP]
  refine ⟨fun e => ?_, fun ⟨e1, e2⟩ => by rw [e1, e2]⟩
  have one : ∀ {s : ScopeG α}, ScopeOk s → OneLine (s.schema ++ scName s.scope ++ scVersion s.scope) := by
    intro s h hm
    rcases List.mem_append.1 hm with hm | hm
    · rcases List.mem_append.1 hm with hm | hm
      · exact h.schema hm
      · exact h.name hm
    · exact h.version hm
  obtain ⟨h1, h2⟩ := line_inj (one h) (one h') (starts_list h.attrs) (starts_list h'.attrs) e
  exact ⟨h1, (C94_attributes h.attrs h'.attrs).1 h2⟩

/-- **C94**: when payloads are merged with a 64-bit hash that does not collide on their texts, two resources become one exactly if they have the
same schema URL and the same attributes; two scopes, exactly if their resources do, and they have the same attributes, and
schema URL, name and version run together are the same. -/
theorem C94_merged (P : Dt.Par) (hP : P.marshal = kvBytes) (h64 : ∀ b, P.H b < 2 ^ 64) {rs : List (ResourceG α)} (hR : NoCollision P (resTexts P rs))
    (hS : NoCollision P (scTexts P rs)) (ok : ∀ r ∈ rs, ResOk r ∧ ∀ s ∈ r.scopes, ScopeOk s) {r r' : ResourceG α} (h : r ∈ rs) (h' : r' ∈ rs) :
    (hr P r = hr P r' ↔ r.schema = r'.schema ∧ resAttrs r.resource = resAttrs r'.resource) ∧
    ∀ s ∈ r.scopes, ∀ s' ∈ r'.scopes, hs P r s = hs P r' s' ↔ r.schema = r'.schema ∧ resAttrs r.resource = resAttrs r'.resource ∧
      s.schema ++ scName s.scope ++ scVersion s.scope = s'.schema ++ scName s'.scope ++ scVersion s'.scope ∧ scAttrs s.scope = scAttrs s'.scope := by
  obtain ⟨h1, h2⟩ := Dt.C36_words P h64 hR hS h h'
  have hw := C94_resource_words P hP (ok r h).1 (ok r' h').1
  refine ⟨h1.trans hw, fun s hs s' hs' => ?_⟩
  rw [h2 s hs s' hs', hw, C94_scope_words P hP ((ok r h).2 s hs) ((ok r' h').2 s' hs'), and_assoc]

/-- **C94**: so nothing is confused (which C36, C77 ask for) if no two scopes differ only in where schema URL, name and version begin. -/
theorem C94_spelled_apart (P : Dt.Par) (hP : P.marshal = kvBytes) {rs : List (ResourceG α)} (ok : ∀ r ∈ rs, ResOk r ∧ ∀ s ∈ r.scopes, ScopeOk s)
    (hc : ∀ r ∈ rs, ∀ r' ∈ rs, ∀ s ∈ r.scopes, ∀ s' ∈ r'.scopes,
      s.schema ++ scName s.scope ++ scVersion s.scope = s'.schema ++ scName s'.scope ++ scVersion s'.scope →
        s.schema = s'.schema ∧ scName s.scope = scName s'.scope) : Dt.SpelledApart P rs where
  resource := fun r h r' h' e => (C94_resource_words P hP (ok r h).1 (ok r' h').1).1 e
  scope := fun r h r' h' s h1 s' h1' e => by
    obtain ⟨e1, e2⟩ := (C94_scope_words P hP ((ok r h).2 s h1) ((ok r' h').2 s' h1')).1 e
    obtain ⟨e3, e4⟩ := hc r h r' h' s h1 s' h1' e1
    refine ⟨e3, e4, ?_, e2⟩
    rw [e3, e4] at e1
    exact List.append_cancel_left e1

/-- An attribute without a value is followed by one without a key: this is written like one attribute. -/
theorem C94_empty_key (k : Bytes) (v : AnyValue) : [⟨k, none⟩, ⟨[], some v⟩].flatMap kvBytes = [⟨k, some v⟩].flatMap kvBytes := by
  simp [kvBytes]

/-- Attributes with the empty key and no value leave no trace. -/
theorem C94_empty (l : List KeyValue) : (⟨[], none⟩ :: l).flatMap kvBytes = l.flatMap kvBytes := rfl

/-- A schema URL with a line feed may read like attributes. -/
theorem C94_line_feed (u : Bytes) (k : Bytes) (hk : k ≠ []) : (u ++ 10 :: delimited k) ++ [].flatMap kvBytes = u ++ [⟨k, none⟩].flatMap kvBytes := by
  simp [kvBytes, hk, tag1]

/-! ## The encoding is that of protobuf -/

/-- An attribute with a value of C92. -/
def kvOf (k : Bytes) : Rd.Any → KeyValue
  | .nil => ⟨k, none⟩
  | .str s => ⟨k, some (.str s)⟩
  | x => ⟨k, some (.other ((marshal otlp anyValue (ofAny x)).getD []))⟩

theorem marshal_ofAny (d : Nat) (x : Rd.Any) (h : AnyOk d x) : marshal otlp anyValue (ofAny x) = some ((marshal otlp anyValue (ofAny x)).getD []) := by
  have := ofAny_fits d x h
  cases hm : marshal otlp anyValue (ofAny x) with
  | some b => rfl
  | none =>
    exfalso
    obtain ⟨fs, u, e⟩ : ∃ fs u, ofAny x = .msg fs u := by cases x <;> rw [ofAny] <;> exact ⟨_, _, rfl⟩
    rw [e] at hm this
    obtain ⟨s, h1, h2⟩ := (C92_fails otlp_proper _ _ _).1 hm
    exact h2 (fits_strings otlp_proper this h1)

/-- **C94**: the hashed text of an attribute is what `proto.Marshal` gives. -/
theorem C94_encoding {k : Bytes} {x : Rd.Any} (hk : Utf8 k) (hx : x = .nil ∨ AnyOk 9999 x) :
    marshal otlp keyValue (ofPair (k, x)) = some (kvBytes (kvOf k x)) := by
  have hf : Fits otlp 10000 (.msg keyValue) (ofPair (k, x)) := key_ok hk (hx.imp_right fun h => ofAny_fits 9999 x h)
  obtain ⟨b, hb, -⟩ := C92_writes otlp_proper hf
  rw [hb]
  have mm : ∀ fs, marshal otlp keyValue (.msg fs []) = some b → encFields otlp 11 fs = b := by
    intro fs h
    rw [marshal] at h
    by_cases hk : fieldsOk otlp keyValue fs = true
    · rw [if_pos hk, List.append_nil] at h; exact Option.some.inj h
    · rw [if_neg hk] at h; cases h
  rw [← mm _ hb]
  clear mm hb
  have app : ∀ l l', encFields otlp 11 (l ++ l') = encFields otlp 11 l ++ encFields otlp 11 l' := by
    intro l l'
    induction l with
    | nil => rw [encFields]; rfl
    | cons e l ih => obtain ⟨n, v⟩ := e; rw [List.cons_append, encFields, encFields, ih, List.append_assoc]
  have key : encFields otlp 11 (ofKey k) = if k = [] then [] else tag 1 2 ++ delimited k := by
    unfold ofKey
    split
    · rw [encFields]
    · rw [encFields, encFields, show otlp.field 11 1 = some (fld 1 .string) by decide]
      simp only [List.append_nil]
      rw [encVal]
      rfl
  have val : isNil x = false → AnyOk 9999 x → encFields otlp 11 [(2, ofAny x)] = tag 2 2 ++ delimited ((marshal otlp anyValue (ofAny x)).getD []) := by
    intro _ hx
    rw [encFields, encFields, show otlp.field 11 2 = some (opt 2 (.msg 31)) by decide]
    obtain ⟨fs, u, e⟩ : ∃ fs u, ofAny x = .msg fs u := by cases x <;> rw [ofAny] <;> exact ⟨_, _, rfl⟩
    have hm := marshal_ofAny 9999 x hx
    rw [e] at hm ⊢
    simp only [List.append_nil]
    rw [show (opt 2 (.msg 31)).kind = .msg 31 from rfl, encVal]
    unfold anyValue
    rw [marshal] at hm ⊢
    split
    · rfl
    · rename_i hn
      rw [show fieldsOk otlp anyValue fs = fieldsOk otlp 31 fs from rfl, if_neg hn] at hm
      cases hm
  have ks : (kvOf k x).key = k := by cases x <;> rfl
  rw [app, key]
  unfold kvBytes
  rw [ks]
  refine congrArg some (congrArg _ ?_)
  rcases hx with rfl | hx
  · rw [show (if isNil (k, Rd.Any.nil).2 then [] else [(2, ofAny (k, Rd.Any.nil).2)] : List (Nat × Val)) = [] from rfl, encFields]; rfl
  · have hn : isNil x = false := by
      cases x
      case nil => exact absurd hx (by rw [AnyOk.eq_def]; nofun)
      all_goals rfl
    rw [show (if isNil (k, x).2 then [] else [(2, ofAny (k, x).2)] : List (Nat × Val)) = [(2, ofAny x)] by simp [hn], val hn hx]
    cases x
    case nil => cases hn
    case str s =>
      have := marshal_ofAny 9999 (.str s) hx
      rw [show ((marshal otlp anyValue (ofAny (.str s))).getD []) = tag 1 2 ++ delimited s by
        rw [ofAny, marshal] at this ⊢
        split
        · rw [Option.getD_some, List.append_nil, encFields, encFields, show otlp.field anyValue 1 = some (alt 1 .string) by decide]
          simp only [List.append_nil]
          rw [encVal]
          rfl
        · rename_i h
          rw [if_neg h] at this
          cases this]
      rfl
    all_goals rfl

theorem other_start {x : Rd.Any} (h : ∀ s, x ≠ .str s) (d : Nat) (hx : AnyOk d x) (s : Bytes) :
    (marshal otlp anyValue (ofAny x)).getD [] ≠ valueBytes (.str s) := by
  have go : ∀ n v f, otlp.field 31 n = some f → tag n f.wireType ≠ [] → (tag n f.wireType).head? ≠ some 10 →
      (marshal otlp anyValue (.msg [(n, v)] [])).getD [] ≠ valueBytes (.str s) := by
    intro n v f hf h0 h1 e
    rw [marshal] at e
    unfold valueBytes at e
    rw [tag1] at e
    split at e
    · rw [Option.getD_some, List.append_nil, encFields, encFields, show otlp.field anyValue n = some f from hf] at e
      obtain ⟨c, r, hc⟩ := List.exists_cons_of_ne_nil h0
      simp only [hc, List.cons_append, List.append_nil, List.nil_append] at e
      injection e with e1 _
      rw [hc, e1] at h1
      exact h1 rfl
    · cases e
  cases x
  case str s' => exact absurd rfl (h s')
  case nil => exact absurd hx (by rw [AnyOk.eq_def]; split <;> simp_all)
  case unset => rw [ofAny, marshal, fieldsOk, encFields]; unfold valueBytes; rw [tag1]; nofun
  all_goals rw [ofAny]
  case bool b => exact go 2 _ _ (by decide : otlp.field 31 2 = some (alt 2 .bool)) (by decide +kernel) (by decide +kernel)
  case int i => exact go 3 _ _ (by decide : otlp.field 31 3 = some (alt 3 .int64)) (by decide +kernel) (by decide +kernel)
  case double n => exact go 4 _ _ (by decide : otlp.field 31 4 = some (alt 4 .fixed64)) (by decide +kernel) (by decide +kernel)
  case array l => exact go 5 _ _ (by decide : otlp.field 31 5 = some (alt 5 (.msg 32))) (by decide +kernel) (by decide +kernel)
  case kvs l => exact go 6 _ _ (by decide : otlp.field 31 6 = some (alt 6 (.msg 33))) (by decide +kernel) (by decide +kernel)
  case bytes b => exact go 7 _ _ (by decide : otlp.field 31 7 = some (alt 7 .bytes)) (by decide +kernel) (by decide +kernel)

/-- **C94**: attributes that are sent are such as the theorems above ask for. -/
theorem C94_ok {k : Bytes} {x : Rd.Any} (hx : x = .nil ∨ AnyOk 9999 x) (hl : (kvBytes (kvOf k x)).length < 2 ^ 64) : KvOk (kvOf k x) := by
  have ks : (kvOf k x).key = k := by cases x <;> rfl
  refine ⟨?_, ?_, ?_⟩
  · rw [ks]
    unfold kvBytes delimited at hl
    rw [ks] at hl
    by_cases hk : k = []
    · rw [hk]; decide
    · rw [if_neg hk] at hl
      simp only [List.length_append] at hl
      omega
  · intro v hv
    unfold kvBytes delimited at hl
    rw [hv] at hl
    simp only [List.length_append] at hl
    omega
  · intro raw hr s _
    cases x
    case nil => cases hr
    case str s => cases hr
    all_goals
      rcases hx with hx | hx
      · cases hx
      · rw [← AnyValue.other.inj (Option.some.inj hr)]
        exact other_start (fun _ h => by cases h) 9999 hx s

/-! ### Concrete cases -/

private def host (v : Bytes) : KeyValue := ⟨[104], some (.str v)⟩

/-- Two resources that differ in an attribute, two scopes in one of them. -/
private def groups : List (ResourceG LogRecord) :=
  [{ schema := [117], resource := some ⟨[host [97], ⟨[112], some (.other [24, 5])⟩]⟩,
     scopes := [{ scope := some { name := [97], attrs := [host []] }, items := [{ ts := 1 }] }, { scope := none, items := [{ ts := 2 }] }] },
   { schema := [117], resource := some ⟨[host [98], ⟨[112], none⟩]⟩, scopes := [{ scope := some { name := [97] }, items := [{ ts := 3 }] }] }]

private theorem host_ok (v : Bytes) (h : v.length < 2 ^ 32) : KvOk (host v) :=
  ⟨(by decide : (1 : Nat) < 2 ^ 64), fun w hw => by
    cases hw
    have := varint_length 9 v.length (Nat.lt_trans h (by decide))
    unfold valueBytes delimited
    rw [tag1]
    simp only [List.length_append, List.length_singleton]
    omega, nofun⟩

private theorem groups_ok : ∀ r ∈ groups, ResOk r ∧ ∀ s ∈ r.scopes, ScopeOk s := by
  have five : KvOk ⟨[112], some (.other [24, 5])⟩ := ⟨by decide, fun w hw => by cases hw; decide, fun raw hr s _ e => by
    cases hr; unfold valueBytes at e; rw [tag1] at e; injection e with e; revert e; decide⟩
  intro r hr
  simp only [groups, List.mem_cons, List.not_mem_nil, or_false] at hr
  rcases hr with rfl | rfl
  · refine ⟨⟨by unfold OneLine; decide, ?_⟩, ?_⟩
    · intro kv hkv
      rcases List.mem_cons.1 hkv with rfl | hkv
      · exact ⟨host_ok _ (by decide), by decide⟩
      · rcases List.mem_singleton.1 hkv with rfl
        exact ⟨five, by decide⟩
    · intro s hs
      rcases List.mem_cons.1 hs with rfl | hs
      · exact ⟨by unfold OneLine; decide, by unfold OneLine; decide, by unfold OneLine; decide, fun kv hkv => by
          rcases List.mem_singleton.1 hkv with rfl
          exact ⟨host_ok _ (by decide), by decide⟩⟩
      · rcases List.mem_singleton.1 hs with rfl
        exact ⟨by unfold OneLine; decide, by unfold OneLine; decide, by unfold OneLine; decide, nofun⟩
  · refine ⟨⟨by unfold OneLine; decide, ?_⟩, ?_⟩
    · intro kv hkv
      rcases List.mem_cons.1 hkv with rfl | hkv
      · exact ⟨host_ok _ (by decide), by decide⟩
      · rcases List.mem_singleton.1 hkv with rfl
        exact ⟨⟨by decide, nofun, nofun⟩, by decide⟩
    · intro s hs
      rcases List.mem_singleton.1 hs with rfl
      exact ⟨by unfold OneLine; decide, by unfold OneLine; decide, by unfold OneLine; decide, nofun⟩

/-- All hypotheses of `C94_merged` hold of them, with xxHash64. -/
example : (∀ b, wirePar.H b < 2 ^ 64) ∧ NoCollision wirePar (resTexts wirePar groups) ∧ NoCollision wirePar (scTexts wirePar groups) ∧
    (∀ r ∈ groups, ResOk r ∧ ∀ s ∈ r.scopes, ScopeOk s) :=
  ⟨Xx.sum_lt _, by unfold NoCollision; decide +kernel, by unfold NoCollision; decide +kernel, groups_ok⟩

example : Dt.SpelledApart wirePar groups := C94_spelled_apart wirePar rfl groups_ok (by decide +kernel)

example : kvBytes (kvOf [107] (.int 5)) = [10, 1, 107, 18, 2, 24, 5] := by decide +kernel

end Verif.Pb
