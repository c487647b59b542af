import Verif.Lemmas.PoolScan
import Verif.Spec.PoolTranslate
/-! # The dictionary uses its buffers properly, and what it returns -/
namespace Verif.Pl

theorem obeys_mem {Q A : Type} {R : Unit → Q → A → Unit → Prop} : ∀ (log : List (Q × A)), (∀ x ∈ log, R () x.1 x.2 ()) → Obeys R () log ()
  | [], _ => rfl
  | (q, a) :: l, h => ⟨(), h (q, a) (by simp), obeys_mem l fun x hx => h x (by simp [hx])⟩

/-- What is so with any answers is so. -/
theorem ends_anything {Q A α σ : Type} {R : σ → Q → A → σ → Prop} (hR : ∀ s q a, ∃ s', R s q a s') {Φ : α → σ → Own → Prop} : ∀ (p : Prog Q A α) (s : σ) (l : Own),
    p.Ends R s l Φ → p.Ends anything () l fun _ _ _ => True := by
  intro p
  induction p with
  | done a => intro s l _; trivial
  | get κ k ih => intro s l h; exact ih _ _ _ h
  | act r f k ih => rintro s l ⟨o, ho, h⟩; exact ⟨o, ho, ih _ _ _ h⟩
  | put r k ih => rintro s l ⟨o, ho, hr, h⟩; exact ⟨o, ho, hr, ih _ _ h⟩
  | ask q k ih =>
    intro s l h a _ _
    obtain ⟨s', hs⟩ := hR s q a
    exact ih _ _ _ (h a s' hs)

/-- Some answers; the dictionary is known as long as they are those of its database. -/
def trackT : Option Tr.World → TAsk → TAns → Option Tr.World → Prop :=
  fun s q a s' => s' = none ∨ ∃ w, s = some w ∧ a = (badgerAnswer w q).1 ∧ s' = some (badgerAnswer w q).2

theorem obeys_trackT : ∀ (log : List (TAsk × TAns)) (w w' : Tr.World), Obeys (fun w q a w' => (a, w') = badgerAnswer w q) w log w' → Obeys trackT (some w) log (some w')
  | [], _, _, h => congrArg some h
  | (q, a) :: l, w, w', ⟨w1, h1, h2⟩ => ⟨some w1, .inr ⟨w, rfl, congrArg Prod.fst h1, congrArg some (congrArg Prod.snd h1)⟩, obeys_trackT l w1 w' h2⟩

/-- What `Tr.translateKey` says: its result and the dictionary afterwards. -/
def TranslateSpec (w : Tr.World) (key : Bytes) (r : TOut) (w' : Tr.World) : Prop :=
  match Tr.translateKey w key with
  | some (w2, n) => r = .id n ∧ w' = w2
  | none => (r = .panic ∨ r = .err)

theorem trackT_some {s : Option Tr.World} {q : TAsk} {a : TAns} {w' : Tr.World} (h : trackT s q a (some w')) :
    ∃ w, s = some w ∧ a = (badgerAnswer w q).1 ∧ w' = (badgerAnswer w q).2 := by
  rcases h with h | ⟨w, h1, h2, h3⟩
  · cases h
  · exact ⟨w, h1, h2, by simpa using h3⟩

theorem translateKey_ends (keys ids key : Bytes) (l : Own) (s : Option Tr.World) :
    (translateKey keys ids key).Ends trackT s l fun r s' _ => ∀ w', s' = some w' → ∃ w, s = some w ∧ (w.tr.keys = keys → w.tr.ids = ids → TranslateSpec w key r w') := by
  refine ends_take (ends_use (Own.add_self ..) (ends_use (Own.set_self ..) (ends_ask fun a s1 hR => ?_)))
  have hb : ([] ++ keys ++ key : Bytes) = keys ++ key := by simp
  have hend : ∀ (r : TOut) (s2 : Option Tr.World) (l2 : Own) (b : Bytes), l2.at_ l.n = some (.buffer b) →
      (∀ w', s2 = some w' → ∃ w, s = some w ∧ (w.tr.keys = keys → w.tr.ids = ids → TranslateSpec w key r w')) →
      (give l.n >>= fun _ => (pure r : T TOut)).Ends trackT s2 l2 fun r s' _ => ∀ w', s' = some w' → ∃ w, s = some w ∧ (w.tr.keys = keys → w.tr.ids = ids → TranslateSpec w key r w') :=
    fun r s2 l2 b h1 h2 => ends_give h1 (release_fresh _ (by simp [Obj.kind])) (ends_pure h2)
  refine ends_seq (Ψ := fun r s2 l2 => (∃ b, l2.at_ l.n = some (.buffer b)) ∧
    ∀ w', s2 = some w' → ∃ w, s = some w ∧ (w.tr.keys = keys → w.tr.ids = ids → TranslateSpec w key r w')) ?_ fun r s2 l2 ⟨⟨b, h1⟩, h2⟩ => hend r s2 l2 b h1 h2
  have herr : (a = .failed ∨ (∃ n, a = .id n) ∨ a = .done) → ∀ w', s1 ≠ some w' := by
    rintro h w' rfl
    obtain ⟨w, h1, h2, h3⟩ := trackT_some hR
    simp only [badgerAnswer] at h2
    cases hg : w.db ((Obj.write key (Obj.write keys (fresh .buffer))).bytes) <;> rw [hg] at h2 <;> subst h2 <;> simp at h
  cases a with
  | failed => exact ends_pure ⟨⟨_, Own.set_self ..⟩, fun w' hw => absurd hw (herr (.inl rfl) w')⟩
  | id n => exact ends_pure ⟨⟨_, Own.set_self ..⟩, fun w' hw => absurd hw (herr (.inr (.inl ⟨n, rfl⟩)) w')⟩
  | done => exact ends_pure ⟨⟨_, Own.set_self ..⟩, fun w' hw => absurd hw (herr (.inr (.inr rfl)) w')⟩
  | value v =>
    have hv : ∀ w', s1 = some w' → ∃ w, s = some w ∧ w' = w ∧ w.db (keys ++ key) = some v := by
      rintro w' rfl
      obtain ⟨w, h1, h2, h3⟩ := trackT_some hR
      refine ⟨w, h1, h3, ?_⟩
      simp only [badgerAnswer, Obj.bytes, Obj.write, fresh, hb] at h2
      cases hg : w.db (keys ++ key) <;> rw [hg] at h2 <;> simp at h2
      rw [h2]
    simp only [translateWith]
    cases hn : btou64 v with
    | none =>
      refine ends_pure ⟨⟨_, Own.set_self ..⟩, fun w' hw => ?_⟩
      obtain ⟨w, h1, h2, h3⟩ := hv w' hw
      refine ⟨w, h1, ?_⟩
      rintro rfl rfl
      simp [TranslateSpec, Tr.translateKey, h3, hn]
    | some n =>
      refine ends_pure ⟨⟨_, Own.set_self ..⟩, fun w' hw => ?_⟩
      obtain ⟨w, h1, h2, h3⟩ := hv w' hw
      refine ⟨w, h1, ?_⟩
      rintro rfl rfl
      simp [TranslateSpec, Tr.translateKey, h3, hn, h2]
  | missing =>
    have hm : ∀ w', s1 = some w' → ∃ w, s = some w ∧ w' = w ∧ w.db (keys ++ key) = none := by
      rintro w' rfl
      obtain ⟨w, h1, h2, h3⟩ := trackT_some hR
      refine ⟨w, h1, h3, ?_⟩
      simp only [badgerAnswer, Obj.bytes, Obj.write, fresh, hb] at h2
      cases hg : w.db (keys ++ key) with
      | none => rfl
      | some v => rw [hg] at h2; cases h2
    refine ends_ask fun a s2 hR2 => ?_
    have hnext : ∀ w', s2 = some w' → ∃ w, s = some w ∧ w.db (keys ++ key) = none ∧ a = (badgerAnswer w .next).1 ∧ w' = (badgerAnswer w .next).2 := by
      rintro w' rfl
      obtain ⟨w1, h1, h2, h3⟩ := trackT_some hR2
      obtain ⟨w, h4, h5, h6⟩ := hm w1 h1
      subst h5
      exact ⟨_, h4, h6, h2, h3⟩
    have hbad : (∀ n, a ≠ .id n) → ∀ w', s2 = some w' → ∃ w, s = some w ∧ (w.tr.keys = keys → w.tr.ids = ids → TranslateSpec w key .err w') := by
      intro ha w' hw
      obtain ⟨w, h1, h2, h3, h4⟩ := hnext w' hw
      refine ⟨w, h1, ?_⟩
      rintro rfl rfl
      simp only [badgerAnswer] at h3
      cases hg : w.tr.seq.nextId w.db with
      | none => simp [TranslateSpec, Tr.translateKey, h2, hg]
      | some x => rw [hg] at h3; exact absurd h3 (ha _)
    cases a with
    | id n =>
      refine ends_look (Own.set_self ..) (ends_use (Own.set_self ..) (ends_use (Own.set_self ..) (ends_use (Own.set_self ..) (ends_ask fun a s3 hR3 => ?_))))
      have hset : ∀ w', s3 = some w' → a = .done ∧ ∃ w, s = some w ∧ (w.tr.keys = keys → w.tr.ids = ids → TranslateSpec w key (.id n) w') := by
        rintro w' rfl
        obtain ⟨w2, h1, h2, h3⟩ := trackT_some hR3
        obtain ⟨w, h4, h5, h6, h7⟩ := hnext w2 h1
        refine ⟨h2, w, h4, ?_⟩
        rintro rfl rfl
        simp only [badgerAnswer] at h6 h7
        cases hg : w.tr.seq.nextId w.db with
        | none => rw [hg] at h6; cases h6
        | some x =>
          rw [hg] at h6 h7
          simp only [TAns.id.injEq] at h6
          simp only at h7
          rw [h3, h7, h6]
          simp [TranslateSpec, Tr.translateKey, h5, hg, badgerAnswer, Obj.bytes, Obj.write, Obj.reset, fresh]
      cases a with
      | done => exact ends_pure ⟨⟨_, Own.set_self ..⟩, fun w' hw => (hset w' hw).2⟩
      | _ => exact ends_pure ⟨⟨_, Own.set_self ..⟩, fun w' hw => nomatch (hset w' hw).1⟩
    | _ => exact ends_pure ⟨⟨_, Own.set_self ..⟩, hbad (by simp)⟩

theorem translateID_ends (ids : Bytes) (id : Nat) (l : Own) (s : Option Tr.World) :
    (translateID ids id).Ends trackT s l fun r s' _ => ∀ w', s' = some w' → s = some w' ∧ (w'.tr.ids = ids → r = match w'.db (ids ++ u64tob id) with | none => .err | some k => .key k) := by
  refine ends_take (ends_use (Own.add_self ..) (ends_use (Own.set_self ..) (ends_ask fun a s1 hR => ends_give (Own.set_self ..) (release_fresh _ (by simp [Obj.kind, Obj.write, fresh])) ?_)))
  have h : ∀ w', s1 = some w' → s = some w' ∧ a = match w'.db (ids ++ u64tob id) with | none => .missing | some v => .value v := by
    rintro w' rfl
    obtain ⟨w, h1, h2, h3⟩ := trackT_some hR
    simp only [badgerAnswer, Obj.bytes, Obj.write, fresh, List.nil_append] at h2 h3
    subst h3
    exact ⟨h1, h2⟩
  cases a <;> refine ends_pure fun w' hw => ⟨(h w' hw).1, fun _ => ?_⟩ <;> have h2 := (h w' hw).2 <;> cases hg : w'.db (ids ++ u64tob id) <;> rw [hg] at h2 <;> simp at h2 ⊢
  exact h2

theorem bulkLoop_ends (ids : Bytes) (g : Nat) (is : List Nat) (l : Own) (s : Option Tr.World) (b : Bytes) (hb : l.at_ g = some (.buffer b)) :
    (bulkLoop ids g is).Ends trackT s l fun r s' l' => (∃ b, l'.at_ g = some (.buffer b)) ∧ ∀ w', s' = some w' → s = some w' ∧ r = Tr.bulkKeys w'.db ids is := by
  induction is generalizing l s b with
  | nil => exact ends_pure ⟨⟨b, hb⟩, fun w' hw => ⟨hw, rfl⟩⟩
  | cons i is ih =>
    refine ends_use hb (ends_use (Own.set_self ..) (ends_use (Own.set_self ..) (ends_ask fun a s1 hR => ?_)))
    have h : ∀ w', s1 = some w' → s = some w' ∧ a = match w'.db (ids ++ u64tob i) with | none => .missing | some v => .value v := by
      rintro w' rfl
      obtain ⟨w, h1, h2, h3⟩ := trackT_some hR
      simp only [badgerAnswer, Obj.bytes, Obj.write, Obj.reset, List.take_zero, List.nil_append] at h2 h3
      subst h3
      exact ⟨h1, h2⟩
    have hbad : (∀ v, a ≠ .value v) → ∀ w', s1 = some w' → s = some w' ∧ (([], false) : List Bytes × Bool) = Tr.bulkKeys w'.db ids (i :: is) := by
      intro hv w' hw
      obtain ⟨h1, h2⟩ := h w' hw
      refine ⟨h1, ?_⟩
      rw [Tr.bulkKeys]
      cases hg : w'.db (ids ++ u64tob i) with
      | none => rfl
      | some v => rw [hg] at h2; exact absurd h2 (hv v)
    cases a with
    | value v =>
      refine ends_seq (ih _ s1 _ (Own.set_self ..)) ?_
      rintro r s2 l2 ⟨h1, h2⟩
      refine ends_pure ⟨h1, fun w' hw => ?_⟩
      obtain ⟨h3, h4⟩ := h2 w' hw
      obtain ⟨h5, h6⟩ := h w' h3
      refine ⟨h5, ?_⟩
      rw [Tr.bulkKeys]
      cases hg : w'.db (ids ++ u64tob i) with
      | none => rw [hg] at h6; cases h6
      | some v' => rw [hg] at h6; cases h6; simp only [h4]
    | _ => exact ends_pure ⟨⟨_, Own.set_self ..⟩, hbad (by simp)⟩

theorem translateBulk_ends (ids : Bytes) (is : List Nat) (l : Own) (s : Option Tr.World) :
    (translateBulk ids is).Ends trackT s l fun r s' _ => ∀ w', s' = some w' → s = some w' ∧ r = .keys (Tr.bulkKeys w'.db ids is).1 (Tr.bulkKeys w'.db ids is).2 := by
  refine ends_take (ends_seq (bulkLoop_ends ids l.n is _ s [] (Own.add_self ..)) ?_)
  rintro r s1 l1 ⟨⟨b, h1⟩, h2⟩
  refine ends_give h1 (release_fresh _ (by simp [Obj.kind])) (ends_pure fun w' hw => ?_)
  obtain ⟨h3, h4⟩ := h2 w' hw
  exact ⟨h3, by rw [h4]⟩

theorem trackT_total (s : Option Tr.World) (q : TAsk) (a : TAns) : ∃ s', trackT s q a s' := ⟨none, .inl rfl⟩

end Verif.Pl
