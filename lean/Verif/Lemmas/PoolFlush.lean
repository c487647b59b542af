import Verif.Lemmas.PoolScan
import Verif.Lemmas.Transform
import Verif.Lemmas.Batch
import Verif.Lemmas.Time
import Verif.Spec.PoolFlush
/-! # A flush uses its objects properly, and what it does -/
namespace Verif.Pl
open Tm
open Bt (Frags Entry)
open St (Flush Outcome)

variable {σ : Type} (D : Dict σ)

theorem ymdh_length (ns : Int) : (ymdh ns).length = 10 := by simp [ymdh, pad4, pad2]

theorem setTime_eq (ns : Int) (b : Bytes) (h : b.length = 10) : Obj.setTime ns (.qtime b) = .qtime (ymdh ns) := by
  simp [Obj.setTime, ymdh_length, h]

theorem views_some (ns : Int) : (viewsOf (ymdh ns) quantumYMDH).isSome := by
  have hnz : ∀ n, digit (n % 10) ≠ 0 := fun n => digit_ne_zero (by omega)
  simp [viewsOf, quantumYMDH, ymdh, pad4, pad2, hnz]

/-- Translate keys in order. -/
def transKeys (tr : Tf.Translator σ) : List Bytes → σ × Bm → Option (σ × Bm)
  | [], x => some x
  | k :: ks, (st, ps) =>
    match tr st k with
    | none => none
    | some (st', n) => transKeys tr ks (st', ps.add n)

theorem transAll_keys (tr : Tf.Translator σ) (ls : List Label) (x : σ × Bm) : Tf.transAll tr ls x = transKeys tr (ls.map Label.encode) x := by
  induction ls generalizing x with
  | nil => rfl
  | cons l ls ih => simp only [Tf.transAll, transKeys, List.map_cons]; cases tr x.1 l.encode <;> [rfl; exact ih _]

theorem transAll_record (ls : List Label) (ks : List Bytes) (ps : Bm) :
    ∃ ps', Tf.transAll (fun (ks : List Bytes) k => some (ks ++ [k], 0)) ls (ks, ps) = some (ks ++ ls.map Label.encode, ps') := by
  induction ls generalizing ks ps with
  | nil => exact ⟨ps, by simp [Tf.transAll]⟩
  | cons l ls ih =>
    obtain ⟨ps', h⟩ := ih (ks ++ [l.encode]) (ps.add 0)
    exact ⟨ps', by simp only [Tf.transAll]; rw [h]; simp⟩

/-- The time bounds a sample gets. -/
def bounded (s : Sample) : Sample := { s with minTs := (Tf.bounds (Tf.dataTimes s.data) (0, 0)).1, maxTs := (Tf.bounds (Tf.dataTimes s.data) (0, 0)).2 }

theorem wanted_eq (r : Int) (s : Sample) :
    wanted r s = some ⟨(Tf.resLabel r :: Tf.dataLabels s.data).map Label.encode, bounded s, Tf.after s.data r⟩ := by
  obtain ⟨ps, h⟩ := transAll_record (Tf.resLabel r :: Tf.dataLabels s.data) [] []
  simp only [wanted, Tf.processSample_eq]
  rw [h]
  simp [bounded]

theorem translateAll_ends (pos : Nat) (ks : List Bytes) (b : Bm) (l : Own) (s : Option (Dbs σ)) (hlt : pos < l.n) (hp : l.at_ pos = some (.bitmap [] b)) :
    (translateAll pos ks).Ends (track D) s l fun ok s' l' => Keep [pos] l l' ∧ ∃ b', l'.at_ pos = some (.bitmap [] b') ∧
      ∀ w', s' = some w' → ∃ w, s = some w ∧ w' = { w with dict := w'.dict } ∧
        transKeys D.tr ks (w.dict, b) = if ok then some (w'.dict, b') else none := by
  induction ks generalizing b l s with
  | nil => exact ends_pure ⟨Keep.refl _ _, b, hp, fun w' h => ⟨w', h, rfl, rfl⟩⟩
  | cons k ks ih =>
    rw [translateAll]
    refine ends_ask fun a s1 hR => ?_
    have hbad : (∀ n, a ≠ .id n) → ∀ w', s1 = some w' → ∃ w, s = some w ∧ w' = { w with dict := w'.dict } ∧ transKeys D.tr (k :: ks) (w.dict, b) = none := by
      intro hn w' hw
      rcases hR with h | ⟨w, h1, h2, h3⟩
      · rw [h] at hw; cases hw
      · rw [h3] at hw; cases hw
        refine ⟨w, h1, ?_, ?_⟩
        · simp only [flushAnswer]; split <;> rfl
        · simp only [transKeys]
          simp only [flushAnswer] at h2
          split at h2
          · rename_i h4; rw [h4]
          · exact absurd h2 (hn _)
    cases a with
    | id n =>
      refine ends_use hp ?_
      refine Prog.ends_mono ?_ _ _ _ (ih (b.add n) _ s1 (by simpa using hlt) (Own.set_self ..))
      rintro ok s' l' ⟨h1, b', h2, h3⟩
      refine ⟨(Keep.set _ (.inl (by simp))).trans h1, b', h2, ?_⟩
      intro w' hw
      obtain ⟨w1, e1, e2, e3⟩ := h3 w' hw
      rcases hR with h | ⟨w, f1, f2, f3⟩
      · rw [h] at e1; cases e1
      · rw [f3] at e1; cases e1
        simp only [flushAnswer] at f2 e2 e3
        refine ⟨w, f1, ?_, ?_⟩
        · split at f2
          · cases f2
          · rename_i h4; rw [h4] at e2; exact e2
        · simp only [transKeys]
          split at f2
          · cases f2
          · rename_i h4; cases f2; rw [h4] at e3; simp only [h4]; exact e3
    | missing => exact ends_pure ⟨Keep.refl _ _, b, hp, by simpa using hbad (by simp)⟩
    | failed => exact ends_pure ⟨Keep.refl _ _, b, hp, by simpa using hbad (by simp)⟩
    | found => exact ends_pure ⟨Keep.refl _ _, b, hp, by simpa using hbad (by simp)⟩
    | bits x => exact ends_pure ⟨Keep.refl _ _, b, hp, by simpa using hbad (by simp)⟩
    | table x => exact ends_pure ⟨Keep.refl _ _, b, hp, by simpa using hbad (by simp)⟩

/-- The batch's objects hold what the entries of Model/Batch.lean hold; they were taken after the first `n`. -/
def HeldOk (n : Nat) (l : Own) : List Held → List Entry → Prop
  | [], [] => True
  | h :: hs, e :: es => (n ≤ h.labels ∧ h.labels < l.n ∧ ∃ b, l.at_ h.labels = some (.bitmap [] b) ∧ e.labels = some b) ∧
      (n ≤ h.q ∧ h.q < l.n ∧ l.at_ h.q = some (.qtime e.q)) ∧ h.id = e.id ∧ HeldOk n l hs es
  | _, _ => False

theorem HeldOk.weaken {n m : Nat} {l : Own} (hnm : m ≤ n) : ∀ {hs : List Held} {es : List Entry}, HeldOk n l hs es → HeldOk m l hs es := by
  intro hs
  induction hs with
  | nil => intro es h; cases es <;> exact h
  | cons x hs ih =>
    intro es h
    cases es with
    | nil => exact h
    | cons e es =>
      obtain ⟨⟨a1, a2, a3⟩, ⟨b1, b2, b3⟩, c, d⟩ := h
      exact ⟨⟨Nat.le_trans hnm a1, a2, a3⟩, ⟨Nat.le_trans hnm b1, b2, b3⟩, c, ih d⟩

theorem HeldOk.q_ge {n : Nat} {l : Own} : ∀ {hs : List Held} {es : List Entry}, HeldOk n l hs es → ∀ h ∈ hs, n ≤ h.q := by
  intro hs
  induction hs with
  | nil => intro es _ h hm; cases hm
  | cons x hs ih =>
    intro es h y hy
    cases es with
    | nil => exact h.elim
    | cons e es =>
      obtain ⟨-, ⟨b1, -, -⟩, -, d⟩ := h
      rcases List.mem_cons.mp hy with rfl | hy
      · exact b1
      · exact ih d y hy

theorem HeldOk.times {n : Nat} {l : Own} : ∀ {hs : List Held} {es : List Entry}, HeldOk n l hs es → ∀ h ∈ hs, ∃ q, l.at_ h.q = some (.qtime q) := by
  intro hs
  induction hs with
  | nil => intro es _ h hm; cases hm
  | cons x hs ih =>
    intro es h y hy
    cases es with
    | nil => exact h.elim
    | cons e es =>
      obtain ⟨-, ⟨-, -, b1⟩, -, d⟩ := h
      rcases List.mem_cons.mp hy with rfl | hy
      · exact ⟨_, b1⟩
      · exact ih d y hy

theorem addTs_ends {R : Option (Dbs σ) → Ask → Ans → Option (Dbs σ) → Prop} (ns : Int) (l : Own) (s : Option (Dbs σ)) :
    (addTs ns).Ends R s l fun q s' l' => s' = s ∧ q = l.n ∧ l'.n = l.n + 1 ∧ Keep [] l l' ∧ l'.at_ q = some (.qtime (ymdh ns)) := by
  refine ends_take (ends_use (Own.add_self ..) (ends_pure ⟨rfl, rfl, rfl, (Keep.refl _ _).add'.set' (.inr (Nat.le_refl _)), ?_⟩))
  · rw [Own.set_self, show fresh Kind.qtime = Obj.qtime (List.replicate 10 0) from rfl, setTime_eq _ _ (by simp)]

/-- What is said about the databases holds of a context of Model/Transform.lean that has this dictionary and this resource. -/
theorem processAll_ends (ss : List Sample) (r : Int) (l : Own) (s : Option (Dbs σ)) :
    (processAll r ss).Ends (track D) s l fun res s' l' => Keep [] l l' ∧ match res with
      | none => ∀ w', s' = some w' → ∃ w, s = some w ∧ ∀ c : Tf.Ctx σ, c.st = w.dict → c.resource = r → Tf.processAll D.tr ss c = none
      | some p => ∃ es, HeldOk l.n l' p.entries es ∧ (∀ e ∈ es, Bt.Good e) ∧ (p.entries.map (·.q)).Nodup ∧
          ∀ w', s' = some w' → ∃ w, s = some w ∧ w' = { w with dict := w'.dict } ∧ ∀ c : Tf.Ctx σ, c.st = w.dict → c.resource = r →
            ∃ c', Tf.processAll D.tr ss c = some (c', p.samples) ∧ c'.st = w'.dict ∧ c'.resource = p.resource ∧
              c'.batch = { c.batch with entries := c.batch.entries ++ es } := by
  induction ss generalizing r l s with
  | nil =>
    refine ends_pure ⟨Keep.refl _ _, [], trivial, by simp, List.nodup_nil, fun w' hw => ⟨w', hw, rfl, fun c h1 h2 => ⟨c, rfl, h1, h2, by simp⟩⟩⟩
  | cons x ss ih =>
    rw [processAll, wanted_eq]
    refine ends_take (ends_seq (translateAll_ends D l.n _ [] _ s (by simp) (Own.add_self ..)) ?_)
    rintro ok s1 l1 ⟨h1, b, h2, h3⟩
    have k1 : Keep [] l l1 := ((Keep.refl [l.n] l).add'.trans h1).weak (by simp)
    have hn1 : l.n < l1.n := by have := h1.1; simp at this; omega
    cases ok with
    | false =>
      refine ends_pure ⟨k1, fun w' hw => ?_⟩
      obtain ⟨w, e1, e2, e3⟩ := h3 w' hw
      refine ⟨w, e1, fun c hc1 hc2 => ?_⟩
      simp only [Tf.processAll, Tf.processSample_eq, transAll_keys]
      rw [hc1, hc2, e3]
      rfl
    | true =>
      refine ends_seq (addTs_ends _ l1 s1) ?_
      rintro q s2 l2 ⟨rfl, rfl, g1, g2, g3⟩
      refine ends_seq (ih (Tf.after x.data r) l2 s2) ?_
      rintro res s' l' ⟨f1, f2⟩
      have k2 : Keep [] l l' := (k1.trans g2).trans f1
      cases res with
      | none =>
        refine ends_pure ⟨k2, fun w' hw => ?_⟩
        obtain ⟨w1, e1, e2⟩ := f2 w' hw
        obtain ⟨w, e3, e4, e5⟩ := h3 w1 e1
        refine ⟨w, e3, fun c hc1 hc2 => ?_⟩
        simp only [Tf.processAll, Tf.processSample_eq, transAll_keys]
        rw [hc1, hc2, e5]
        simp only [if_true, Option.map_some, Option.bind_eq_bind, Option.bind_some]
        rw [e2 _ rfl rfl]
        rfl
      | some p =>
        obtain ⟨es, a1, a0, a2, a3⟩ := f2
        refine ends_pure ⟨k2, ⟨x.id, some b, ymdh (toInt64 (bounded x).minTs)⟩ :: es, ⟨⟨Nat.le_refl _, ?_, b, ?_, rfl⟩, ⟨?_, ?_, ?_⟩, rfl, a1.weaken (by omega)⟩, ?_, ?_, ?_⟩
        · have := f1.1; show l.n < l'.n; omega
        · rw [f1.2 _ (show l.n < l2.n by omega) (by simp), g2.2 _ hn1 (by simp)]; exact h2
        · exact k1.1
        · have := f1.1; show l1.n < l'.n; omega
        · rw [f1.2 _ (show l1.n < l2.n by omega) (by simp)]; exact g3
        · intro e he
          rcases List.mem_cons.mp he with rfl | he
          · exact .inr (views_some _)
          · exact a0 e he
        · refine List.nodup_cons.mpr ⟨fun hm => ?_, a2⟩
          obtain ⟨h, hh, he⟩ := List.mem_map.mp hm
          have := a1.q_ge h hh
          change h.q = l1.n at he
          omega
        · intro w' hw
          obtain ⟨w1, e1, e6, e2⟩ := a3 w' hw
          obtain ⟨w, e3, e4, e5⟩ := h3 w1 e1
          refine ⟨w, e3, by rw [e6, e4], fun c hc1 hc2 => ?_⟩
          have hs : Tf.processSample D.tr x c = some (⟨(bounded x).minTs, (bounded x).maxTs, c.batch.add x.id (toInt64 (bounded x).minTs) (some b), [], Tf.after x.data r, w1.dict⟩, bounded x) := by
            rw [Tf.processSample_eq, transAll_keys, hc1, hc2, e5]
            rfl
          obtain ⟨c', d1, d2, d3, d4⟩ := e2 ⟨(bounded x).minTs, (bounded x).maxTs, c.batch.add x.id (toInt64 (bounded x).minTs) (some b), [], Tf.after x.data r, w1.dict⟩ rfl rfl
          refine ⟨c', ?_, d2, d3, ?_⟩
          · simp only [Tf.processAll, hs, Option.bind_eq_bind, Option.bind_some]
            rw [d1]
            rfl
          · rw [d4]; simp [Bt.Batch.add]

theorem makeFragments_ends {R : Option (Dbs σ) → Ask → Ans → Option (Dbs σ) → Prop} {n : Nat} (hs : List Held) (es : List Entry) (f : Frags) (l : Own) (s : Option (Dbs σ))
    (h : HeldOk n l hs es) :
    (makeFragments hs f).Ends R s l fun r s' l' => s' = s ∧ l' = l ∧ r = if (Bt.makeFragments es f).2 then some (Bt.makeFragments es f).1 else none := by
  induction hs generalizing es f with
  | nil =>
    cases es with
    | nil => exact ends_pure ⟨rfl, rfl, rfl⟩
    | cons e es => exact h.elim
  | cons x hs ih =>
    cases es with
    | nil => exact h.elim
    | cons e es =>
      obtain ⟨⟨-, -, b, h1, h2⟩, ⟨-, -, h3⟩, h4, h5⟩ := h
      refine ends_look h1 (ends_look h3 ?_)
      simp only [Obj.ymdh, Obj.bits, Bt.makeFragments, h2]
      cases hv : viewsOf e.q quantumYMDH with
      | none => exact ends_pure ⟨rfl, rfl, rfl⟩
      | some vs => rw [h4]; exact ih es _ h5

theorem releaseTimes_ends {R : Option (Dbs σ) → Ask → Ans → Option (Dbs σ) → Prop} (hs : List Held) (l : Own) (s : Option (Dbs σ))
    (h : ∀ x ∈ hs, ∃ q, l.at_ x.q = some (.qtime q)) (hn : (hs.map (·.q)).Nodup) :
    (releaseTimes hs).Ends R s l fun _ s' _ => s' = s := by
  induction hs generalizing l with
  | nil => exact ends_pure rfl
  | cons x hs ih =>
    obtain ⟨q, hq⟩ := h x (List.mem_cons_self ..)
    obtain ⟨hn1, hn2⟩ := List.nodup_cons.mp hn
    refine ends_give hq (release_fresh _ (by simp [Obj.kind])) (ih _ (fun y hy => ?_) hn2)
    obtain ⟨q', hq'⟩ := h y (List.mem_cons_of_mem _ hy)
    exact ⟨q', by rw [Own.set_ne _ _ (fun he => hn1 (List.mem_map.mpr ⟨y, hy, he⟩))]; exact hq'⟩

theorem groupViews_ends {R : Option (Dbs σ) → Ask → Ans → Option (Dbs σ) → Prop} (q : Nat) (ss : List Sample) (m : AMap Bytes (List Sample)) (l : Own) (s : Option (Dbs σ))
    (h : ∃ b, l.at_ q = some (.qtime b) ∧ b.length = 10) :
    (groupViews q ss m).Ends R s l fun r s' _ => s' = s ∧ r = Df.groupViews ss m := by
  induction ss generalizing m l with
  | nil => exact ends_pure ⟨rfl, rfl⟩
  | cons x ss ih =>
    obtain ⟨b, h1, h2⟩ := h
    refine ends_use h1 ?_
    rw [setTime_eq _ _ h2]
    simp only [Obj.ymdh, Df.groupViews, sampleViews]
    cases hv : viewsOf (ymdh (toInt64 x.minTs)) quantumYMDH with
    | none => exact ends_pure ⟨rfl, rfl⟩
    | some vs => exact ih _ _ ⟨_, Own.set_self .., ymdh_length _⟩

/-- What the four objects of `appendView` hold. -/
structure Four (l : Own) (m lg t g : Nat) (a b c : Bm) (rows : List Data) : Prop where
  m : l.at_ m = some (.bitmap [] a)
  lg : l.at_ lg = some (.bitmap [] b)
  t : l.at_ t = some (.bitmap [] c)
  g : l.at_ g = some (.schema rows)

theorem loadSet_ends (kind : Int) (v : Bytes) (x : Nat) (b : Bm) (l : Own) (s : Option (Dbs σ)) (hx : l.at_ x = some (.bitmap [] b)) :
    (loadSet kind v x).Ends (track D) s l fun ok s' l' => (∃ b', l' = l.set x (some (.bitmap [] b')) ∧
      ∀ w', s' = some w' → s = some w' ∧ ∀ r, w'.frame v = some r → ok = true ∧ b' = r.set kind) := by
  refine ends_ask fun a s1 hR => ?_
  have hst : ∀ w', s1 = some w' → s = some w' ∧ a = (flushAnswer D w' (.ids kind v)).1 := by
    intro w' hw
    rcases hR with h | ⟨w, h1, h2, h3⟩
    · rw [h] at hw; cases hw
    · rw [h3] at hw; cases hw; exact ⟨h1, h2⟩
  have hbad : (∀ y, a ≠ .bits y) → ∃ b', l = l.set x (some (.bitmap [] b')) ∧ ∀ w', s1 = some w' → s = some w' ∧ ∀ r, w'.frame v = some r → false = true ∧ b' = r.set kind := by
    intro hn
    refine ⟨b, (Own.set_same hx).symm, fun w' hw => ⟨(hst w' hw).1, fun r hr => ?_⟩⟩
    have := (hst w' hw).2
    simp only [flushAnswer, hr] at this
    exact absurd this (hn _)
  cases a with
  | bits y =>
    refine ends_use hx (ends_pure ⟨y, rfl, fun w' hw => ⟨(hst w' hw).1, fun r hr => ⟨rfl, ?_⟩⟩⟩)
    have := (hst w' hw).2
    simp only [flushAnswer, hr, Ans.bits.injEq] at this
    exact this
  | missing => exact ends_pure (hbad (by simp))
  | failed => exact ends_pure (hbad (by simp))
  | found => exact ends_pure (hbad (by simp))
  | id n => exact ends_pure (hbad (by simp))
  | table y => exact ends_pure (hbad (by simp))

theorem appendLoop_ends {R : Option (Dbs σ) → Ask → Ans → Option (Dbs σ) → Prop} {m lg t g : Nat} (hd : [m, lg, t, g].Nodup) (r : List Data) (ss : List Sample) (last : Nat)
    (a b c : Bm) (rows : List Data) (l : Own) (s : Option (Dbs σ)) (h : Four l m lg t g a b c rows) :
    (appendLoop m lg t g last ss).Ends R s l fun _ s' l' => s' = s ∧ ∃ rows',
      Four l' m lg t g (ss.foldl Df.appendOne ⟨⟨r ++ rows, a, c, b⟩, last⟩).recd.metrics (ss.foldl Df.appendOne ⟨⟨r ++ rows, a, c, b⟩, last⟩).recd.logs
        (ss.foldl Df.appendOne ⟨⟨r ++ rows, a, c, b⟩, last⟩).recd.traces rows' ∧
      (ss.foldl Df.appendOne ⟨⟨r ++ rows, a, c, b⟩, last⟩).recd.rows = r ++ rows' := by
  simp only [List.nodup_cons, List.mem_cons, List.not_mem_nil, or_false, not_or, not_false_eq_true, List.nodup_nil, and_true] at hd
  obtain ⟨⟨d1, d2, d3⟩, ⟨d4, d5⟩, d6⟩ := hd
  induction ss generalizing last a b c rows l with
  | nil => exact ends_pure ⟨rfl, rows, h, rfl⟩
  | cons x ss ih =>
    have key : ∀ (a' b' c' : Bm) (l' : Own), Four l' m lg t g a' b' c' rows → Df.setSample ⟨r ++ rows, a, c, b⟩ x = ⟨r ++ rows, a', c', b'⟩ →
        (do let _ ← use g (Obj.append (List.replicate (x.id - (last + 1)) Data.none ++ [x.data])); appendLoop m lg t g x.id ss : P Unit).Ends R s l' fun _ s' l' => s' = s ∧ ∃ rows',
      Four l' m lg t g ((x :: ss).foldl Df.appendOne ⟨⟨r ++ rows, a, c, b⟩, last⟩).recd.metrics ((x :: ss).foldl Df.appendOne ⟨⟨r ++ rows, a, c, b⟩, last⟩).recd.logs
        ((x :: ss).foldl Df.appendOne ⟨⟨r ++ rows, a, c, b⟩, last⟩).recd.traces rows' ∧
      ((x :: ss).foldl Df.appendOne ⟨⟨r ++ rows, a, c, b⟩, last⟩).recd.rows = r ++ rows' := by
      intro a' b' c' l' h' hset
      refine ends_use h'.g ?_
      have := ih x.id a' b' c' (rows ++ (List.replicate (x.id - (last + 1)) Data.none ++ [x.data])) _
        ⟨(Own.set_ne _ _ d3).trans h'.m, (Own.set_ne _ _ d5).trans h'.lg, (Own.set_ne _ _ d6).trans h'.t, Own.set_self l' g (some (.schema (rows ++ (List.replicate (x.id - (last + 1)) Data.none ++ [x.data]))))⟩
      simp only [List.foldl_cons]
      have e : Df.appendOne ⟨⟨r ++ rows, a, c, b⟩, last⟩ x = ⟨⟨r ++ (rows ++ (List.replicate (x.id - (last + 1)) Data.none ++ [x.data])), a', c', b'⟩, x.id⟩ := by
        simp only [Df.appendOne, hset, List.append_assoc]
      rw [e]
      exact this
    rw [appendLoop, setSample]
    cases hx : x.data with
    | metrics y =>
      refine ends_seq (Ψ := fun _ s' l' => s' = s ∧ Four l' m lg t g (a.add x.id) b c rows) (ends_use h.m (ends_pure ⟨rfl, Own.set_self .., (Own.set_ne _ _ (Ne.symm d1)).trans h.lg,
        (Own.set_ne _ _ (Ne.symm d2)).trans h.t, (Own.set_ne _ _ (Ne.symm d3)).trans h.g⟩)) ?_
      rintro _ s' l' ⟨rfl, h'⟩
      rw [← hx]
      exact key _ _ _ _ h' (by simp [Df.setSample, hx])
    | traces y =>
      refine ends_seq (Ψ := fun _ s' l' => s' = s ∧ Four l' m lg t g a b (c.add x.id) rows) (ends_use h.t (ends_pure ⟨rfl, (Own.set_ne _ _ d2).trans h.m, (Own.set_ne _ _ d4).trans h.lg,
        Own.set_self .., (Own.set_ne _ _ (Ne.symm d6)).trans h.g⟩)) ?_
      rintro _ s' l' ⟨rfl, h'⟩
      rw [← hx]
      exact key _ _ _ _ h' (by simp [Df.setSample, hx])
    | logs y =>
      refine ends_seq (Ψ := fun _ s' l' => s' = s ∧ Four l' m lg t g a (b.add x.id) c rows) (ends_use h.lg (ends_pure ⟨rfl, (Own.set_ne _ _ d1).trans h.m, Own.set_self ..,
        (Own.set_ne _ _ (Ne.symm d4)).trans h.t, (Own.set_ne _ _ (Ne.symm d5)).trans h.g⟩)) ?_
      rintro _ s' l' ⟨rfl, h'⟩
      rw [← hx]
      exact key _ _ _ _ h' (by simp [Df.setSample, hx])
    | none =>
      refine ends_seq (Ψ := fun _ s' l' => s' = s ∧ Four l' m lg t g a b c rows) (ends_pure ⟨rfl, h⟩) ?_
      rintro _ s' l' ⟨rfl, h'⟩
      have := key _ _ _ _ h' (by simp [Df.setSample, hx])
      rw [hx] at this
      exact this

theorem set_metrics (r : Df.VRec) : r.set Res.metrics = r.metrics := rfl
theorem set_logs (r : Df.VRec) : r.set Res.logs = r.logs := rfl
theorem set_traces (r : Df.VRec) : r.set Res.traces = r.traces := rfl

/-- A question that changes nothing. -/
theorem track_same {s s' : Option (Dbs σ)} {q : Ask} {a : Ans} (h : track D s q a s') (hq : ∀ w, (flushAnswer D w q).2 = w) :
    ∀ w', s' = some w' → s = some w' ∧ a = (flushAnswer D w' q).1 := by
  intro w' hw
  rcases h with h | ⟨w, h1, h2, h3⟩
  · rw [h] at hw; cases hw
  · rw [h3, hq] at hw; cases hw; exact ⟨h1, h2⟩

/-- What `loadView` finds. -/
def Loaded (w : Dbs σ) (v : Bytes) (r : Option (Option (List Data))) (a b c : Bm) : Prop :=
  match w.frame v with
  | none => r = some none ∧ a = [] ∧ b = [] ∧ c = []
  | some x => r = some (some x.rows) ∧ a = x.metrics ∧ b = x.logs ∧ c = x.traces

theorem loadView_ends (v : Bytes) {m lg t g : Nat} (hd : [m, lg, t, g].Nodup) (l : Own) (s : Option (Dbs σ)) (h : Four l m lg t g [] [] [] []) :
    (loadView v m lg t).Ends (track D) s l fun r s' l' => ∃ a b c, Four l' m lg t g a b c [] ∧ ∀ w', s' = some w' → s = some w' ∧ Loaded w' v r a b c := by
  simp only [List.nodup_cons, List.mem_cons, List.not_mem_nil, or_false, not_or, not_false_eq_true, List.nodup_nil, and_true] at hd
  obtain ⟨⟨d1, d2, d3⟩, ⟨d4, d5⟩, d6⟩ := hd
  refine ends_ask fun a s1 hR => ?_
  have hst := track_same D hR (fun w => rfl)
  simp only [flushAnswer] at hst
  have hgo : (∀ w', s1 = some w' → ∃ x, w'.frame v = some x) → (do
      let a ← ask (.table v)
      match a with
      | .table rows => do
        let x ← loadSet Res.metrics v m
        if x then do
          let y ← loadSet Res.logs v lg
          if y then do
            let z ← loadSet Res.traces v t
            if z then pure (some (some rows)) else pure none
          else pure none
        else pure none
      | _ => pure none : P (Option (Option (List Data)))).Ends (track D) s1 l fun r s' l' => ∃ a b c, Four l' m lg t g a b c [] ∧ ∀ w', s' = some w' → s = some w' ∧ Loaded w' v r a b c := by
    intro hex
    refine ends_ask fun a2 s2 hR2 => ?_
    have hst2 := track_same D hR2 (fun w => rfl)
    simp only [flushAnswer] at hst2
    have hbad : (∀ y, a2 ≠ .table y) → ∃ a b c, Four l m lg t g a b c [] ∧ ∀ w', s2 = some w' → s = some w' ∧ Loaded w' v none a b c := by
      intro hn
      refine ⟨[], [], [], h, fun w' hw => ?_⟩
      obtain ⟨e1, e2⟩ := hst2 w' hw
      obtain ⟨x, hx⟩ := hex w' e1
      rw [hx] at e2
      exact absurd e2 (hn _)
    cases a2 with
    | table rows =>
      refine ends_seq (loadSet_ends D Res.metrics v m [] l s2 h.m) ?_
      rintro x s3 _ ⟨b1, rfl, q1⟩
      have f1 : Four (l.set m (some (.bitmap [] b1))) m lg t g b1 [] [] [] :=
        ⟨Own.set_self .., (Own.set_ne _ _ (Ne.symm d1)).trans h.lg, (Own.set_ne _ _ (Ne.symm d2)).trans h.t, (Own.set_ne _ _ (Ne.symm d3)).trans h.g⟩
      have r1 : ∀ w', s3 = some w' → s = some w' ∧ ∃ y, w'.frame v = some y ∧ rows = y.rows ∧ x = true ∧ b1 = y.metrics := by
        intro w' hw
        obtain ⟨e1, e2⟩ := q1 w' hw
        obtain ⟨e3, e4⟩ := hst2 w' e1
        obtain ⟨y, hy⟩ := hex w' e3
        rw [hy] at e4
        cases e4
        exact ⟨(hst w' e3).1, y, hy, rfl, e2 y hy⟩
      cases x with
      | false => exact ends_pure ⟨_, _, _, f1, fun w' hw => by obtain ⟨-, y, -, -, hy, -⟩ := r1 w' hw; cases hy⟩
      | true =>
        refine ends_seq (loadSet_ends D Res.logs v lg [] _ s3 f1.lg) ?_
        rintro x s4 _ ⟨b2, rfl, q2⟩
        have f2 : Four ((l.set m (some (.bitmap [] b1))).set lg (some (.bitmap [] b2))) m lg t g b1 b2 [] [] :=
          ⟨(Own.set_ne _ _ d1).trans f1.m, Own.set_self .., (Own.set_ne _ _ (Ne.symm d4)).trans f1.t, (Own.set_ne _ _ (Ne.symm d5)).trans f1.g⟩
        have r2 : ∀ w', s4 = some w' → s = some w' ∧ ∃ y, w'.frame v = some y ∧ rows = y.rows ∧ b1 = y.metrics ∧ x = true ∧ b2 = y.logs := by
          intro w' hw
          obtain ⟨e1, e2⟩ := q2 w' hw
          obtain ⟨e3, y, e4, e5, -, e6⟩ := r1 w' e1
          exact ⟨e3, y, e4, e5, e6, e2 y e4⟩
        cases x with
        | false => exact ends_pure ⟨_, _, _, f2, fun w' hw => by obtain ⟨-, y, -, -, -, hy, -⟩ := r2 w' hw; cases hy⟩
        | true =>
          refine ends_seq (loadSet_ends D Res.traces v t [] _ s4 f2.t) ?_
          rintro x s5 _ ⟨b3, rfl, q3⟩
          have f3 : Four (((l.set m (some (.bitmap [] b1))).set lg (some (.bitmap [] b2))).set t (some (.bitmap [] b3))) m lg t g b1 b2 b3 [] :=
            ⟨(Own.set_ne _ _ d2).trans f2.m, (Own.set_ne _ _ d4).trans f2.lg, Own.set_self .., (Own.set_ne _ _ (Ne.symm d6)).trans f2.g⟩
          have r3 : ∀ w', s5 = some w' → s = some w' ∧ ∃ y, w'.frame v = some y ∧ rows = y.rows ∧ b1 = y.metrics ∧ b2 = y.logs ∧ x = true ∧ b3 = y.traces := by
            intro w' hw
            obtain ⟨e1, e2⟩ := q3 w' hw
            obtain ⟨e3, y, e4, e5, e6, -, e7⟩ := r2 w' e1
            exact ⟨e3, y, e4, e5, e6, e7, e2 y e4⟩
          cases x with
          | false => exact ends_pure ⟨_, _, _, f3, fun w' hw => by obtain ⟨-, y, -, -, -, -, hy, -⟩ := r3 w' hw; cases hy⟩
          | true =>
            refine ends_pure ⟨_, _, _, f3, fun w' hw => ?_⟩
            obtain ⟨e1, y, e2, e3, e4, e5, -, e6⟩ := r3 w' hw
            refine ⟨e1, ?_⟩
            simp only [Loaded, e2]
            exact ⟨by rw [e3], e4, e5, e6⟩
    | missing => exact ends_pure (hbad (by simp))
    | failed => exact ends_pure (hbad (by simp))
    | found => exact ends_pure (hbad (by simp))
    | id n => exact ends_pure (hbad (by simp))
    | bits y => exact ends_pure (hbad (by simp))
  have hex : a ≠ .missing → ∀ w', s1 = some w' → ∃ x, w'.frame v = some x := by
    intro ha w' hw
    have := (hst w' hw).2
    cases hf : w'.frame v with
    | none => rw [hf] at this; exact absurd this ha
    | some x => exact ⟨x, rfl⟩
  cases a with
  | missing =>
    refine ends_pure ⟨[], [], [], h, fun w' hw => ?_⟩
    obtain ⟨e1, e2⟩ := hst w' hw
    refine ⟨e1, ?_⟩
    cases hf : w'.frame v with
    | none => simp [Loaded, hf]
    | some x => rw [hf] at e2; cases e2
  | failed =>
    refine ends_pure ⟨[], [], [], h, fun w' hw => ?_⟩
    have := (hst w' hw).2
    cases hf : w'.frame v <;> rw [hf] at this <;> cases this
  | found => exact hgo (hex (by simp))
  | id n => exact hgo (hex (by simp))
  | bits y => exact hgo (hex (by simp))
  | table y => exact hgo (hex (by simp))

theorem writeView_ends (v : Bytes) {m lg t g : Nat} (hd : [m, lg, t, g].Nodup) (r : List Data) (a b c : Bm) (rows : List Data) (l : Own) (s : Option (Dbs σ))
    (h : Four l m lg t g a b c rows) :
    (writeView v m lg t g r).Ends (track D) s l fun ok s' l' => Four l' m lg t g a b c [] ∧ ∀ w', s' = some w' → ∃ w, s = some w ∧
      if ok then 0 < w.commits ∧ w' = { w with frame := fun x => if x = v then some ⟨r ++ rows, a, c, b⟩ else w.frame x, commits := w.commits - 1 }
      else w.commits = 0 ∧ w' = w := by
  simp only [List.nodup_cons, List.mem_cons, List.not_mem_nil, or_false, not_or, not_false_eq_true, List.nodup_nil, and_true] at hd
  obtain ⟨⟨d1, d2, d3⟩, ⟨d4, d5⟩, d6⟩ := hd
  have h' : Four (l.set g (some (.schema []))) m lg t g a b c [] :=
    ⟨(Own.set_ne _ _ d3).trans h.m, (Own.set_ne _ _ d5).trans h.lg, (Own.set_ne _ _ d6).trans h.t, Own.set_self ..⟩
  refine ends_look h.g (ends_use h.g (ends_look h'.m (ends_look h'.t (ends_look h'.lg (ends_ask fun ans s1 hR => ?_)))))
  have hbad : ans ≠ .found → ∀ w', s1 = some w' → ∃ w, s = some w ∧ w.commits = 0 ∧ w' = w := by
    intro hn w' hw
    rcases hR with h | ⟨w, e1, e2, e3⟩
    · rw [h] at hw; cases hw
    · rw [e3] at hw; cases hw
      simp only [flushAnswer] at e2 ⊢
      split at e2
      · rename_i h0; exact ⟨w, e1, h0, by rw [if_pos h0]⟩
      · exact absurd e2 hn
  cases ans with
  | found =>
    refine ends_pure ⟨h', fun w' hw => ?_⟩
    rcases hR with h | ⟨w, e1, e2, e3⟩
    · rw [h] at hw; cases hw
    · rw [e3] at hw; cases hw
      simp only [flushAnswer] at e2 ⊢
      split at e2
      · cases e2
      · rename_i h0
        refine ⟨w, e1, ?_⟩
        rw [if_pos trivial, if_neg h0]
        exact ⟨by omega, rfl⟩
  | missing => exact ends_pure ⟨h', by simpa using hbad (by simp)⟩
  | failed => exact ends_pure ⟨h', by simpa using hbad (by simp)⟩
  | id n => exact ends_pure ⟨h', by simpa using hbad (by simp)⟩
  | bits y => exact ends_pure ⟨h', by simpa using hbad (by simp)⟩
  | table y => exact ends_pure ⟨h', by simpa using hbad (by simp)⟩

theorem updateView_ends (v : Bytes) (ss : List Sample) {m lg t g : Nat} (hd : [m, lg, t, g].Nodup) (l : Own) (s : Option (Dbs σ)) (h : Four l m lg t g [] [] [] []) :
    (updateView v ss m lg t g).Ends (track D) s l fun ok s' l' => (∃ a b c, Four l' m lg t g a b c []) ∧ ∀ w', s' = some w' → ∃ w, s = some w ∧
      if ok then 0 < w.commits ∧ w' = { w with frame := Df.appendView w.frame v ss, commits := w.commits - 1 } else w.commits = 0 ∧ w' = w := by
  refine ends_seq (loadView_ends D v hd l s h) ?_
  rintro r s1 l1 ⟨a, b, c, h1, h2⟩
  cases r with
  | none =>
    refine ends_pure ⟨⟨a, b, c, h1⟩, fun w' hw => ?_⟩
    obtain ⟨-, e⟩ := h2 w' hw
    simp only [Loaded] at e
    split at e <;> cases e.1
  | some r =>
    refine ends_seq (appendLoop_ends hd (r.getD []) ss (lastId r) a b c [] l1 s1 h1) ?_
    rintro _ s2 l2 ⟨rfl, rows', h3, h4⟩
    refine Prog.ends_mono ?_ _ _ _ (writeView_ends D v hd (r.getD []) _ _ _ rows' l2 s2 h3)
    rintro ok s' l' ⟨h5, h6⟩
    refine ⟨⟨_, _, _, h5⟩, fun w' hw => ?_⟩
    obtain ⟨w, e1, e2⟩ := h6 w' hw
    obtain ⟨e3, e4⟩ := h2 w e1
    refine ⟨w, e3, ?_⟩
    have hst : (⟨⟨r.getD [] ++ [], a, c, b⟩, lastId r⟩ : Df.AppendState) = Df.startState (w.frame v) := by
      simp only [Loaded] at e4
      cases hf : w.frame v with
      | none => rw [hf] at e4; obtain ⟨q1, rfl, rfl, rfl⟩ := e4; cases q1; rfl
      | some x => rw [hf] at e4; obtain ⟨q1, rfl, rfl, rfl⟩ := e4; cases q1; simp [Df.startState, lastId]
    have he : (fun x => if x = v then some ⟨r.getD [] ++ rows', (ss.foldl Df.appendOne ⟨⟨r.getD [] ++ [], a, c, b⟩, lastId r⟩).recd.metrics,
        (ss.foldl Df.appendOne ⟨⟨r.getD [] ++ [], a, c, b⟩, lastId r⟩).recd.traces, (ss.foldl Df.appendOne ⟨⟨r.getD [] ++ [], a, c, b⟩, lastId r⟩).recd.logs⟩ else w.frame x) =
        Df.appendView w.frame v ss := by
      funext x
      simp only [Df.appendView]
      rw [← hst, ← h4]
    rw [he] at e2
    exact e2

theorem appendView_ends (v : Bytes) (ss : List Sample) (l : Own) (s : Option (Dbs σ)) :
    (appendView v ss).Ends (track D) s l fun ok s' _ => ∀ w', s' = some w' → ∃ w, s = some w ∧
      if ok then 0 < w.commits ∧ w' = { w with frame := Df.appendView w.frame v ss, commits := w.commits - 1 } else w.commits = 0 ∧ w' = w := by
  refine ends_take (ends_take (ends_take (ends_take ?_)))
  have hd : [l.n, l.n + 1, l.n + 1 + 1, l.n + 1 + 1 + 1].Nodup := by simp; omega
  have h4 : Four ((((l.add (fresh .bitmap)).add (fresh .bitmap)).add (fresh .bitmap)).add (fresh .schema)) l.n (l.n + 1) (l.n + 1 + 1) (l.n + 1 + 1 + 1) [] [] [] [] := by
    have e1 : l.n ≠ l.n + 1 + 1 + 1 := by omega
    refine ⟨?_, ?_, ?_, ?_⟩ <;> simp [Own.add, e1] <;> rfl
  refine ends_seq (updateView_ends D v ss hd _ s h4) ?_
  rintro ok s' l' ⟨⟨a, b, c, h⟩, h2⟩
  simp only [List.nodup_cons, List.mem_cons, List.not_mem_nil, or_false, not_or, not_false_eq_true, List.nodup_nil, and_true] at hd
  obtain ⟨⟨d1, d2, d3⟩, ⟨d4, d5⟩, d6⟩ := hd
  refine ends_give h.g rfl (ends_give ((Own.set_ne _ _ d3).trans h.m) (release_fresh _ (by simp [Obj.kind])) (ends_give (o := .bitmap [] b) ?_ (release_fresh _ (by simp [Obj.kind]))
    (ends_give (o := .bitmap [] c) ?_ (release_fresh _ (by simp [Obj.kind])) (ends_pure h2))))
  · exact (Own.set_ne _ _ (Ne.symm d1)).trans ((Own.set_ne _ _ d5).trans h.lg)
  · refine (Own.set_ne _ _ (Ne.symm d4)).trans ((Own.set_ne _ _ (Ne.symm d2)).trans ((Own.set_ne _ _ d6).trans h.t))

theorem appendViews_ends (m : AMap Bytes (List Sample)) (l : Own) (s : Option (Dbs σ)) :
    (appendViews m).Ends (track D) s l fun ok s' _ => ∀ w', s' = some w' → ∃ w, s = some w ∧ Df.appendViews w.frame m w.commits = (w'.frame, ok) ∧
      w'.dict = w.dict ∧ w'.idx = w.idx ∧ (ok = true → w'.commits = w.commits - m.length) := by
  induction m generalizing l s with
  | nil => exact ends_pure fun w' hw => ⟨w', hw, by simp [Df.appendViews], rfl, rfl, by simp⟩
  | cons e m ih =>
    refine ends_seq (appendView_ends D e.1 e.2 l s) ?_
    intro ok s1 l1 h1
    cases ok with
    | false =>
      refine ends_pure fun w' hw => ?_
      obtain ⟨w, e1, e2⟩ := h1 w' hw
      simp only [Bool.false_eq_true, if_false] at e2
      obtain ⟨e3, rfl⟩ := e2
      exact ⟨w', e1, by simp [Df.appendViews, e3], rfl, rfl, by simp⟩
    | true =>
      refine Prog.ends_mono ?_ _ _ _ (ih l1 s1)
      intro ok s' l' h2 w' hw
      obtain ⟨w1, e1, e2, e3, e4, e5⟩ := h2 w' hw
      obtain ⟨w, e6, e7⟩ := h1 w1 e1
      rw [if_pos rfl] at e7
      obtain ⟨e8, rfl⟩ := e7
      refine ⟨w, e6, ?_, e3, e4, fun hok => ?_⟩
      · rw [← e2]
        obtain ⟨k, hk⟩ : ∃ k, w.commits = k + 1 := ⟨w.commits - 1, by omega⟩
        simp [Df.appendViews, hk]
      · rw [e5 hok]; simp; omega

theorem append_ends (order : AMap Bytes (List Sample) → AMap Bytes (List Sample)) (ss : List Sample) (l : Own) (s : Option (Dbs σ)) :
    (append order ss).Ends (track D) s l fun ok s' _ => ∀ w', s' = some w' → ∃ w, s = some w ∧ w'.dict = w.dict ∧ w'.idx = w.idx ∧ match Df.groupViews ss [] with
      | none => ok = false ∧ w'.frame = w.frame
      | some m => Df.appendViews w.frame (order m) w.commits = (w'.frame, ok) ∧ (ok = true → w'.commits = w.commits - (order m).length) := by
  refine ends_take (ends_seq (groupViews_ends l.n ss [] _ s ⟨_, Own.add_self .., by simp⟩) ?_)
  rintro r s1 l1 ⟨rfl, rfl⟩
  cases hg : Df.groupViews ss [] with
  | none => exact ends_pure fun w' hw => ⟨w', hw, rfl, rfl, rfl, rfl⟩
  | some m =>
    refine Prog.ends_mono ?_ _ _ _ (appendViews_ends D (order m) l1 s1)
    intro ok s' l' h w' hw
    obtain ⟨w, e1, e2, e3, e4, e5⟩ := h w' hw
    exact ⟨w, e1, e3, e4, e2, e5⟩

theorem indexLoop_ends (bitsOrder : AMap Bytes Bm → AMap Bytes Bm) (f : Frags) (l : Own) (s : Option (Dbs σ)) :
    (indexLoop bitsOrder f).Ends (track D) s l fun ok s' _ => ∀ w', s' = some w' → ∃ w, s = some w ∧ St.indexLoop bitsOrder f w.commits w.idx = (w'.idx, ok) ∧
      w'.dict = w.dict ∧ w'.frame = w.frame := by
  induction f generalizing l s with
  | nil => exact ends_pure fun w' hw => ⟨w', hw, rfl, rfl, rfl⟩
  | cons e f ih =>
    obtain ⟨k, vs⟩ := e
    refine ends_ask fun a s1 hR => ?_
    have hbad : a ≠ .found → ∀ w', s1 = some w' → ∃ w, s = some w ∧ St.indexLoop bitsOrder ((k, vs) :: f) w.commits w.idx = (w'.idx, false) ∧ w'.dict = w.dict ∧ w'.frame = w.frame := by
      intro hn w' hw
      rcases hR with h | ⟨w, e1, e2, e3⟩
      · rw [h] at hw; cases hw
      · rw [e3] at hw; cases hw
        simp only [flushAnswer] at e2 ⊢
        split at e2
        · rename_i h0; exact ⟨w, e1, by simp [h0, St.indexLoop], by simp [h0], by simp [h0]⟩
        · exact absurd e2 hn
    cases a with
    | found =>
      refine Prog.ends_mono ?_ _ _ _ (ih l s1)
      intro ok s' l' h w' hw
      obtain ⟨w1, f1, f2, f3, f4⟩ := h w' hw
      rcases hR with h | ⟨w, e1, e2, e3⟩
      · rw [h] at f1; cases f1
      · rw [e3] at f1; cases f1
        simp only [flushAnswer] at e2 f2 f3 f4
        split at e2
        · cases e2
        · rename_i h0
          rw [if_neg h0] at f2 f3 f4
          obtain ⟨n, hn⟩ : ∃ n, w.commits = n + 1 := ⟨w.commits - 1, by omega⟩
          exact ⟨w, e1, by rw [← f2]; simp [hn, St.indexLoop], f3, f4⟩
    | missing => exact ends_pure (hbad (by simp))
    | failed => exact ends_pure (hbad (by simp))
    | id n => exact ends_pure (hbad (by simp))
    | bits y => exact ends_pure (hbad (by simp))
    | table y => exact ends_pure (hbad (by simp))

theorem saveAll_ends (fl : Flush) (ss : List Sample) (f : Frags) (l : Own) (s : Option (Dbs σ)) :
    (saveAll fl ss f).Ends (track D) s l fun o s' _ => ∀ w', s' = some w' → ∃ w, s = some w ∧ w'.dict = w.dict ∧
      match Df.groupViews ss [] with
      | none => o = .err ∧ w'.frame = w.frame ∧ w'.idx = w.idx
      | some m =>
        if (Df.appendViews w.frame (fl.viewOrder m) w.commits).2 then
          w'.frame = (Df.appendViews w.frame (fl.viewOrder m) w.commits).1 ∧
          (St.indexLoop fl.bitsOrder (fl.shardOrder f) (w.commits - (fl.viewOrder m).length) w.idx).1 = w'.idx ∧
          o = if (St.indexLoop fl.bitsOrder (fl.shardOrder f) (w.commits - (fl.viewOrder m).length) w.idx).2 then .ok else .err
        else o = .err ∧ w'.frame = (Df.appendViews w.frame (fl.viewOrder m) w.commits).1 ∧ w'.idx = w.idx := by
  refine ends_seq (append_ends D fl.viewOrder ss l s) ?_
  intro ok s1 l1 h1
  cases ok with
  | false =>
    refine ends_pure fun w' hw => ?_
    obtain ⟨w, e1, e2, e3, e4⟩ := h1 w' hw
    refine ⟨w, e1, e2, ?_⟩
    cases hg : Df.groupViews ss [] with
    | none => rw [hg] at e4; exact ⟨rfl, e4.2, e3⟩
    | some m =>
      rw [hg] at e4
      obtain ⟨e5, -⟩ := e4
      simp only [e5, Bool.false_eq_true, if_false]
      exact ⟨trivial, trivial, e3⟩
  | true =>
    refine ends_seq (indexLoop_ends D fl.bitsOrder (fl.shardOrder f) l1 s1) ?_
    intro ok2 s2 l2 h2
    refine ends_pure fun w' hw => ?_
    obtain ⟨w1, f1, f2, f3, f4⟩ := h2 w' hw
    obtain ⟨w, e1, e2, e3, e4⟩ := h1 w1 f1
    refine ⟨w, e1, f3.trans e2, ?_⟩
    cases hg : Df.groupViews ss [] with
    | none => rw [hg] at e4; cases e4.1
    | some m =>
      rw [hg] at e4
      obtain ⟨e5, e6⟩ := e4
      simp only [e5, if_true]
      rw [e6 rfl, e3] at f2
      rw [f2]
      exact ⟨f4, rfl, rfl⟩

theorem flush_ends (r : Int) (fl : Flush) (l : Own) (s : Option (Dbs σ)) :
    (flush r fl).Ends (track D) s l fun o s' _ => ∀ w', s' = some w' → ∃ w, s = some w ∧ ∀ S, Holds w S r → fl.commits = w.commits →
      (St.saveSamples D S fl).2 = o.1 ∧ (o.1 ≠ .exit → Holds w' (St.saveSamples D S fl).1 o.2) := by
  refine ends_seq (processAll_ends D fl.samples r l s) ?_
  rintro res s1 l1 ⟨-, h1⟩
  cases res with
  | none =>
    refine ends_pure fun w' hw => ?_
    obtain ⟨w, e1, e2⟩ := h1 w' hw
    refine ⟨w, e1, fun S hS _ => ?_⟩
    simp [St.saveSamples, Tf.processSamples, e2 S.ctx hS.dict hS.resource]
  | some p =>
    obtain ⟨es, h2, h0, h3, h4⟩ := h1
    refine ends_seq (makeFragments_ends p.entries es [] l1 s1 h2) ?_
    rintro f s2 l2 ⟨rfl, rfl, rfl⟩
    have hf : (Bt.makeFragments es []).2 = true := (Bt.makeFragments_good h0).1
    have hproc : ∀ w', s2 = some w' → ∃ w, s = some w ∧ w' = { w with dict := w'.dict } ∧ ∀ S, Holds w S r → ∃ c,
        Tf.processSamples D.tr fl.samples S.ctx = some (c, p.samples, some (Bt.makeFragments es []).1) ∧
        c.st = w'.dict ∧ c.resource = p.resource ∧ c.batch = Bt.Batch.new := by
      intro w' hw
      obtain ⟨w, e1, e2, e3⟩ := h4 w' hw
      refine ⟨w, e1, e2, fun S hS => ?_⟩
      obtain ⟨c, d1, d2, d3, d4⟩ := e3 S.ctx hS.dict hS.resource
      have hb : c.batch = ⟨es, []⟩ := by rw [d4, hS.batch]; simp [Bt.Batch.new]
      refine ⟨{ c with batch := Bt.Batch.new }, ?_, d2, d3, rfl⟩
      simp only [Tf.processSamples, d1, Option.bind_eq_bind, Option.bind_some, hb, Bt.Batch.build, hf, if_true]
      rfl
    rw [hf]
    simp only [if_true]
    refine ends_seq (releaseTimes_ends p.entries l2 s2 h2.times h3) ?_
    rintro _ s3 l3 rfl
    refine ends_seq (saveAll_ends D fl p.samples (Bt.makeFragments es []).1 l3 s3) ?_
    intro o s4 l4 h5
    refine ends_pure fun w' hw => ?_
    obtain ⟨w1, e1, e2, e3⟩ := h5 w' hw
    obtain ⟨w, e4, e5, e6⟩ := hproc w1 e1
    refine ⟨w, e4, fun S hS hc => ?_⟩
    obtain ⟨c, d1, d2, d3, d4⟩ := e6 S hS
    have g1 : w1.frame = S.frame := by rw [e5, hS.frame]
    have g2 : w1.idx = S.idx := by rw [e5, hS.idx]
    have g3 : w1.commits = fl.commits := by rw [e5, hc]
    rw [g1, g2, g3] at e3
    simp only [St.saveSamples, d1, if_true]
    cases hg : Df.groupViews p.samples [] with
    | none =>
      rw [hg] at e3
      exact ⟨e3.1.symm, fun _ => ⟨d2.trans e2.symm, d3, d4, e3.2.1.symm, e3.2.2.symm⟩⟩
    | some m =>
      rw [hg] at e3
      simp only at e3 ⊢
      by_cases ha : (Df.appendViews S.frame (fl.viewOrder m) fl.commits).2 = true
      · rw [if_pos ha] at e3
        rw [if_pos ha]
        exact ⟨e3.2.2.symm, fun _ => ⟨d2.trans e2.symm, d3, d4, e3.1.symm, e3.2.1⟩⟩
      · rw [if_neg ha] at e3
        rw [if_neg ha]
        exact ⟨e3.1.symm, fun _ => ⟨d2.trans e2.symm, d3, d4, e3.2.1.symm, e3.2.2.symm⟩⟩

end Verif.Pl
