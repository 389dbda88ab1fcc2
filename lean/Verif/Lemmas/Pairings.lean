import Verif.SpecPairings

/-! # Lemmas about the wrappers of `bplib` -/

namespace Zksk.Bp

variable {A B T : Type}

theorem hm_bind {α β : Type} (x : HM A B T α) (f : α → HM A B T β) (h : Heap A B T) :
    (x >>= f) h = match x h with | (.ok a, h') => f a h' | (.error e, h') => (.error e, h') := rfl

theorem hm_pure {α : Type} (a : α) (h : Heap A B T) : (pure a : HM A B T α) h = (.ok a, h) := rfl

/-- What `generator()` should return. -/
def genPt (lib : BpGroup A B T) (b : Nat) : Kind → Point A B T
  | .one => ⟨.g1 lib.gen1, b⟩
  | .two => ⟨.g2 lib.gen2, b⟩
  | .tgt => ⟨.gt (lib.pair lib.gen1 lib.gen2), b⟩

/-- What `infinite()` should return. -/
def infPt (lib : BpGroup A B T) (b : Nat) (k : Kind) : Point A B T := ⟨lib.neutral (genPt lib b k).pt, b⟩

/-- The attribute `bpgp`: no object, no attribute, or its value. -/
def status (h : Heap A B T) (b : Nat) : Option (Option (BpGroup A B T)) := (h[b]?).map (·.bpgp)

/-- What pairs keep is right. -/
structure Good (lib : BpGroup A B T) (h : Heap A B T) : Prop where
  group : ∀ (b : Nat) (o : PairObj A B T), h[b]? = some o → o.bpgp = none ∨ o.bpgp = some lib
  gen : ∀ (b : Nat) (o : PairObj A B T) (k : Kind) (p : Point A B T), h[b]? = some o → o.gen k = some p → p = genPt lib b k ∧ o.bpgp = some lib
  inf : ∀ (b : Nat) (o : PairObj A B T) (k : Kind) (p : Point A B T), h[b]? = some o → o.inf k = some p → p = infPt lib b k ∧ o.bpgp = some lib

/-- Right, with the same pairs. -/
def Fine (lib : BpGroup A B T) (h h' : Heap A B T) : Prop := Good lib h' ∧ ∀ b, status h' b = status h b

theorem Fine.refl {lib : BpGroup A B T} {h : Heap A B T} (hg : Good lib h) : Fine lib h h := ⟨hg, fun _ => rfl⟩

theorem Fine.trans {lib : BpGroup A B T} {h h' h'' : Heap A B T} (h1 : Fine lib h h') (h2 : Fine lib h' h'') :
    Fine lib h h'' := ⟨h2.1, fun b => (h2.2 b).trans (h1.2 b)⟩

theorem fine_setGen {lib : BpGroup A B T} {h : Heap A B T} {b : Nat} (hg : Good lib h)
    (hb : status h b = some (some lib)) (k : Kind) :
    (setGen b k (genPt lib b k) h).1 = .ok () ∧ Fine lib h (setGen b k (genPt lib b k) h).2 := by
  obtain ⟨o, ho, hl⟩ := Option.map_eq_some_iff.mp hb
  refine ⟨rfl, ⟨?_, ?_, ?_⟩, ?_⟩
  · intro b' o' ho'
    simp only [setGen, List.getElem?_modify] at ho'
    obtain ⟨o1, h1, h2⟩ := Option.map_eq_some_iff.mp ho'
    have := hg.group b' o1 h1
    split at h2 <;> (subst h2; exact this)
  · intro b' o' k' p ho' hp
    simp only [setGen, List.getElem?_modify] at ho'
    obtain ⟨o1, h1, h2⟩ := Option.map_eq_some_iff.mp ho'
    have := hg.gen b' o1 k' p h1
    split at h2
    · rename_i he
      subst he
      rw [ho] at h1; cases h1
      subst h2
      simp only at hp ⊢
      split at hp
      · rename_i hk; cases hp; subst hk; exact ⟨rfl, hl⟩
      · exact this hp
    · subst h2; exact this hp
  · intro b' o' k' p ho' hp
    simp only [setGen, List.getElem?_modify] at ho'
    obtain ⟨o1, h1, h2⟩ := Option.map_eq_some_iff.mp ho'
    have := hg.inf b' o1 k' p h1
    split at h2 <;> (subst h2; exact this hp)
  · intro b'
    simp only [status, setGen, List.getElem?_modify]
    cases h[b']? with
    | none => rfl
    | some o1 =>
      simp only [Option.map_eq_map, Option.map_some]
      split <;> rfl

theorem fine_setInf {lib : BpGroup A B T} {h : Heap A B T} {b : Nat} (hg : Good lib h)
    (hb : status h b = some (some lib)) (k : Kind) :
    (setInf b k (infPt lib b k) h).1 = .ok () ∧ Fine lib h (setInf b k (infPt lib b k) h).2 := by
  obtain ⟨o, ho, hl⟩ := Option.map_eq_some_iff.mp hb
  refine ⟨rfl, ⟨?_, ?_, ?_⟩, ?_⟩
  · intro b' o' ho'
    simp only [setInf, List.getElem?_modify] at ho'
    obtain ⟨o1, h1, h2⟩ := Option.map_eq_some_iff.mp ho'
    have := hg.group b' o1 h1
    split at h2 <;> (subst h2; exact this)
  · intro b' o' k' p ho' hp
    simp only [setInf, List.getElem?_modify] at ho'
    obtain ⟨o1, h1, h2⟩ := Option.map_eq_some_iff.mp ho'
    have := hg.gen b' o1 k' p h1
    split at h2 <;> (subst h2; exact this hp)
  · intro b' o' k' p ho' hp
    simp only [setInf, List.getElem?_modify] at ho'
    obtain ⟨o1, h1, h2⟩ := Option.map_eq_some_iff.mp ho'
    have := hg.inf b' o1 k' p h1
    split at h2
    · rename_i he
      subst he
      rw [ho] at h1; cases h1
      subst h2
      simp only at hp ⊢
      split at hp
      · rename_i hk; cases hp; subst hk; exact ⟨rfl, hl⟩
      · exact this hp
    · subst h2; exact this hp
  · intro b'
    simp only [status, setInf, List.getElem?_modify]
    cases h[b']? with
    | none => rfl
    | some o1 =>
      simp only [Option.map_eq_map, Option.map_some]
      split <;> rfl

theorem bpgp_alive {h : Heap A B T} {b : Nat} {g : BpGroup A B T} (hb : status h b = some (some g)) :
    bpgp b h = (.ok g, h) := by
  obtain ⟨o, ho, hl⟩ := Option.map_eq_some_iff.mp hb
  simp only [bpgp, ho, hl]

theorem bpgp_dead {h : Heap A B T} {b : Nat} (hb : ∀ g, status h b ≠ some (some g)) :
    bpgp b h = (.error .attributeError, h) := by
  unfold bpgp
  cases ho : h[b]? with
  | none => rfl
  | some o =>
    cases hl : o.bpgp with
    | none => simp only [hl]
    | some g => exact absurd (by simp only [status, ho, Option.map_some, hl]) (hb g)

theorem status_cases {lib : BpGroup A B T} {h : Heap A B T} (hg : Good lib h) (b : Nat) :
    status h b = some (some lib) ∨ ∀ g, status h b ≠ some (some g) := by
  unfold status
  cases ho : h[b]? with
  | none => right; intro g hc; cases hc
  | some o =>
    rcases hg.group b o ho with hl | hl
    · right; intro g hc; simp only [Option.map_some, hl] at hc; cases hc
    · left; simp only [Option.map_some, hl]

theorem getGen_alive {lib : BpGroup A B T} {h : Heap A B T} (hg : Good lib h) (b : Nat) (k : Kind) :
    getGen b k h = (.ok none, h) ∨ (getGen b k h = (.ok (some (genPt lib b k)), h) ∧ status h b = some (some lib)) := by
  unfold getGen
  cases ho : h[b]? with
  | none => left; rfl
  | some o =>
    cases hp : o.gen k with
    | none => left; simp only [Option.bind_some, hp]
    | some p =>
      right
      obtain ⟨rfl, h2⟩ := hg.gen b o k p ho hp
      exact ⟨by simp only [Option.bind_some, hp], by simp only [status, ho, Option.map_some, h2]⟩

theorem getInf_alive {lib : BpGroup A B T} {h : Heap A B T} (hg : Good lib h) (b : Nat) (k : Kind) :
    getInf b k h = (.ok none, h) ∨ (getInf b k h = (.ok (some (infPt lib b k)), h) ∧ status h b = some (some lib)) := by
  unfold getInf
  cases ho : h[b]? with
  | none => left; rfl
  | some o =>
    cases hp : o.inf k with
    | none => left; simp only [Option.bind_some, hp]
    | some p =>
      right
      obtain ⟨rfl, h2⟩ := hg.inf b o k p ho hp
      exact ⟨by simp only [Option.bind_some, hp], by simp only [status, ho, Option.map_some, h2]⟩

theorem generator1_alive {lib : BpGroup A B T} {h : Heap A B T} {b : Nat} (hg : Good lib h)
    (hb : status h b = some (some lib)) :
    ∃ h', generator1 b h = (.ok (genPt lib b .one), h') ∧ Fine lib h h' := by
  unfold generator1
  rcases getGen_alive hg b .one with hx | ⟨hx, _⟩
  · refine ⟨_, ?_, (fine_setGen hg hb .one).2⟩
    simp only [hm_bind, hx, bpgp_alive hb]
    rfl
  · exact ⟨h, by simp only [hm_bind, hx]; rfl, Fine.refl hg⟩

theorem generator2_alive {lib : BpGroup A B T} {h : Heap A B T} {b : Nat} (hg : Good lib h)
    (hb : status h b = some (some lib)) :
    ∃ h', generator2 b h = (.ok (genPt lib b .two), h') ∧ Fine lib h h' := by
  unfold generator2
  rcases getGen_alive hg b .two with hx | ⟨hx, _⟩
  · refine ⟨_, ?_, (fine_setGen hg hb .two).2⟩
    simp only [hm_bind, hx, bpgp_alive hb]
    rfl
  · exact ⟨h, by simp only [hm_bind, hx]; rfl, Fine.refl hg⟩

theorem generatorT_alive {lib : BpGroup A B T} {h : Heap A B T} {b : Nat} (hg : Good lib h)
    (hb : status h b = some (some lib)) :
    ∃ h', generatorT b h = (.ok (genPt lib b .tgt), h') ∧ Fine lib h h' := by
  unfold generatorT
  rcases getGen_alive hg b .tgt with hx | ⟨hx, _⟩
  · obtain ⟨h1, e1, f1⟩ := generator1_alive hg hb
    have hb1 : status h1 b = some (some lib) := (f1.2 b).trans hb
    obtain ⟨h2, e2, f2⟩ := generator2_alive f1.1 hb1
    have hb2 : status h2 b = some (some lib) := (f2.2 b).trans hb1
    refine ⟨_, ?_, (f1.trans f2).trans (fine_setGen f2.1 hb2 .tgt).2⟩
    simp only [hm_bind, hx, e1, e2, genPt, Point.pair, bpgp_alive hb2]
    rfl
  · exact ⟨h, by simp only [hm_bind, hx]; rfl, Fine.refl hg⟩

theorem generator_alive {lib : BpGroup A B T} {h : Heap A B T} {b : Nat} (hg : Good lib h)
    (hb : status h b = some (some lib)) (k : Kind) :
    ∃ h', generator b k h = (.ok (genPt lib b k), h') ∧ Fine lib h h' := by
  cases k
  · exact generator1_alive hg hb
  · exact generator2_alive hg hb
  · exact generatorT_alive hg hb

theorem infinite_alive {lib : BpGroup A B T} {h : Heap A B T} {b : Nat} (hg : Good lib h)
    (hb : status h b = some (some lib)) (k : Kind) :
    ∃ h', infinite b k h = (.ok (infPt lib b k), h') ∧ Fine lib h h' := by
  unfold infinite
  rcases getInf_alive hg b k with hx | ⟨hx, _⟩
  · obtain ⟨h1, e1, f1⟩ := generator_alive hg hb k
    have hb1 : status h1 b = some (some lib) := (f1.2 b).trans hb
    refine ⟨_, ?_, f1.trans (fine_setInf f1.1 hb1 k).2⟩
    simp only [hm_bind, hx, e1, bpgp_alive hb1]
    rfl
  · exact ⟨h, by simp only [hm_bind, hx]; rfl, Fine.refl hg⟩

theorem generator1_dead {lib : BpGroup A B T} {h : Heap A B T} {b : Nat} (hg : Good lib h)
    (hb : ∀ g, status h b ≠ some (some g)) : generator1 b h = (.error .attributeError, h) := by
  unfold generator1
  rcases getGen_alive hg b .one with hx | ⟨_, hx⟩
  · simp only [hm_bind, hx, bpgp_dead hb]
  · exact absurd hx (hb lib)

theorem generator2_dead {lib : BpGroup A B T} {h : Heap A B T} {b : Nat} (hg : Good lib h)
    (hb : ∀ g, status h b ≠ some (some g)) : generator2 b h = (.error .attributeError, h) := by
  unfold generator2
  rcases getGen_alive hg b .two with hx | ⟨_, hx⟩
  · simp only [hm_bind, hx, bpgp_dead hb]
  · exact absurd hx (hb lib)

theorem generator_dead {lib : BpGroup A B T} {h : Heap A B T} {b : Nat} (hg : Good lib h)
    (hb : ∀ g, status h b ≠ some (some g)) (k : Kind) : generator b k h = (.error .attributeError, h) := by
  cases k
  · exact generator1_dead hg hb
  · exact generator2_dead hg hb
  · change generatorT b h = _
    unfold generatorT
    rcases getGen_alive hg b .tgt with hx | ⟨_, hx⟩
    · simp only [hm_bind, hx, generator1_dead hg hb]
    · exact absurd hx (hb lib)

theorem infinite_dead {lib : BpGroup A B T} {h : Heap A B T} {b : Nat} (hg : Good lib h)
    (hb : ∀ g, status h b ≠ some (some g)) (k : Kind) : infinite b k h = (.error .attributeError, h) := by
  unfold infinite
  rcases getInf_alive hg b k with hx | ⟨_, hx⟩
  · simp only [hm_bind, hx, generator_dead hg hb]
  · exact absurd hx (hb lib)

theorem generator_fine {lib : BpGroup A B T} {h : Heap A B T} (hg : Good lib h) (b : Nat) (k : Kind) :
    Fine lib h (generator b k h).2 := by
  rcases status_cases hg b with hb | hb
  · obtain ⟨h', e, f⟩ := generator_alive hg hb k
    rw [e]; exact f
  · rw [generator_dead hg hb]; exact Fine.refl hg

theorem infinite_fine {lib : BpGroup A B T} {h : Heap A B T} (hg : Good lib h) (b : Nat) (k : Kind) :
    Fine lib h (infinite b k h).2 := by
  rcases status_cases hg b with hb | hb
  · obtain ⟨h', e, f⟩ := infinite_alive hg hb k
    rw [e]; exact f
  · rw [infinite_dead hg hb]; exact Fine.refl hg

theorem bpgp_same (h : Heap A B T) (b : Nat) : (bpgp b h).2 = h := by
  unfold bpgp
  cases h[b]? with
  | none => rfl
  | some o => cases ho : o.bpgp <;> simp only [ho]

theorem order_same (h : Heap A B T) (b : Nat) (k : Kind) : (Bp.order b k h).2 = h := by
  have := bpgp_same h b
  simp only [Bp.order, hm_bind]
  cases hx : bpgp b h with
  | mk r h' => rw [hx] at this; cases this; cases r <;> rfl

theorem hashToPoint_same (h : Heap A B T) (b : Nat) (k : Kind) (s : List UInt8) : (hashToPoint b k s h).2 = h := by
  have := bpgp_same h b
  cases k <;> simp only [hashToPoint, hm_bind, HM.fail]
  cases hx : bpgp b h with
  | mk r h' => rw [hx] at this; cases this; cases r <;> rfl

theorem pair_same (h : Heap A B T) (p q : Point A B T) : (p.pair q h).2 = h := by
  have := bpgp_same h p.bp
  unfold Point.pair
  cases p.pt with
  | g1 a =>
    simp only [hm_bind]
    cases hx : bpgp p.bp h with
    | mk r h' => rw [hx] at this; cases this; cases r <;> cases q.pt <;> rfl
  | g2 _ => rfl
  | gt _ => rfl

theorem good_nil (lib : BpGroup A B T) : Good lib [] :=
  ⟨fun _ _ h => by simp at h, fun _ _ _ _ h => by simp at h, fun _ _ _ _ h => by simp at h⟩

theorem good_mk {lib : BpGroup A B T} {h : Heap A B T} (hg : Good lib h) (g : Option (BpGroup A B T)) :
    Good lib (mkPair lib g h).2 := by
  have key : ∀ (b : Nat) (o : PairObj A B T), (mkPair lib g h).2[b]? = some o → h[b]? = some o ∨
      ((o.bpgp = none ∨ o.bpgp = some lib) ∧ (∀ k, o.gen k = none) ∧ ∀ k, o.inf k = none) := by
    intro b o ho
    simp only [mkPair, List.getElem?_append] at ho
    split at ho
    · exact .inl ho
    · right
      rw [List.getElem?_singleton] at ho
      split at ho
      · cases ho
        cases g
        · exact ⟨.inr rfl, fun _ => rfl, fun _ => rfl⟩
        · exact ⟨.inl rfl, fun _ => rfl, fun _ => rfl⟩
      · cases ho
  refine ⟨fun b o ho => ?_, fun b o k p ho hp => ?_, fun b o k p ho hp => ?_⟩
  · rcases key b o ho with h1 | h1
    · exact hg.group b o h1
    · exact h1.1
  · rcases key b o ho with h1 | h1
    · exact hg.gen b o k p h1 hp
    · rw [h1.2.1] at hp; cases hp
  · rcases key b o ho with h1 | h1
    · exact hg.inf b o k p h1 hp
    · rw [h1.2.2] at hp; cases hp

theorem status_mk {lib : BpGroup A B T} {h : Heap A B T} {b : Nat} {x : Option (BpGroup A B T)}
    (g : Option (BpGroup A B T)) (hb : status h b = some x) : status (mkPair lib g h).2 b = some x := by
  obtain ⟨o, ho, hl⟩ := Option.map_eq_some_iff.mp hb
  have hlt : b < h.length := (List.getElem?_eq_some_iff.mp ho).1
  simp only [status, mkPair, List.getElem?_append, hlt, if_true]
  exact hb

section
variable [AddCommGroup A] [AddCommGroup B] [CommGroup T]

theorem lift_same {α : Type} (x : HM A B T α) {β : Type} (f : α → Except Err β) (h : Heap A B T) :
    ((x >>= fun a => HM.lift (f a)) h).2 = (x h).2 := by
  rw [hm_bind]
  cases x h with
  | mk r h' => cases r <;> rfl

theorem call_good {lib : BpGroup A B T} {h : Heap A B T} (hg : Good lib h) (c : Call A B T) :
    Good lib (c.run lib h) ∧ ∀ b x, status h b = some x → status (c.run lib h) b = some x := by
  have fine : ∀ {h' : Heap A B T}, Fine lib h h' → Good lib h' ∧ ∀ b x, status h b = some x → status h' b = some x :=
    fun f => ⟨f.1, fun b x hx => (f.2 b).trans hx⟩
  cases c with
  | mk g => exact ⟨good_mk hg g, fun b x hx => status_mk g hx⟩
  | order b k => exact fine (by simp only [Call.run, order_same]; exact Fine.refl hg)
  | generator b k => exact fine (generator_fine hg b k)
  | infinite b k => exact fine (infinite_fine hg b k)
  | sum b k ps => exact fine (by simp only [Call.run, Bp.sum, lift_same]; exact infinite_fine hg b k)
  | wsum b k ws ps => exact fine (by simp only [Call.run, Bp.wsum, lift_same]; exact infinite_fine hg b k)
  | hashToPoint b k s => exact fine (by simp only [Call.run, hashToPoint_same]; exact Fine.refl hg)
  | pair p q => exact fine (by simp only [Call.run, pair_same]; exact Fine.refl hg)

theorem after_good {lib : BpGroup A B T} : ∀ (cs : List (Call A B T)) {h : Heap A B T}, Good lib h →
    Good lib (after lib h cs) ∧ ∀ b x, status h b = some x → status (after lib h cs) b = some x
  | [], _, hg => ⟨hg, fun _ _ hx => hx⟩
  | c :: cs, h, hg => by
    obtain ⟨g1, s1⟩ := call_good hg c
    obtain ⟨g2, s2⟩ := after_good cs g1
    exact ⟨g2, fun b x hx => s2 b x (s1 b x hx)⟩

theorem made_good {lib : BpGroup A B T} {g : Option (BpGroup A B T)} {b : Nat} {h : Heap A B T}
    (hm : Made lib g b h) :
    Good lib h ∧ status h b = some (match g with | none => some lib | some _ => none) := by
  obtain ⟨before, afterwards, hb, rfl⟩ := hm
  have g0 := (after_good (lib := lib) before (good_nil lib)).1
  have g1 := good_mk g0 g
  obtain ⟨g2, s2⟩ := after_good afterwards g1
  refine ⟨g2, s2 _ _ ?_⟩
  simp only [mkPair, Except.ok.injEq] at hb
  subst hb
  simp only [status, mkPair, List.getElem?_append, lt_irrefl, if_false, Nat.sub_self, List.getElem?_cons_zero,
    Option.map_some]
  cases g <;> rfl

theorem val_infPt {lib : BpGroup A B T} (hl : lib.Works) (b : Nat) (k : Kind) :
    IsPoint (infPt lib b k) b k 0 := by
  cases k
  · exact ⟨rfl, rfl, by simp only [infPt, genPt, BpGroup.neutral, Elem.val, hl.inf1]; rfl⟩
  · exact ⟨rfl, rfl, by simp only [infPt, genPt, BpGroup.neutral, Elem.val, hl.inf2]; rfl⟩
  · exact ⟨rfl, rfl, by simp only [infPt, genPt, BpGroup.neutral, Elem.val, hl.one]; rfl⟩

theorem val_genPt (lib : BpGroup A B T) (b : Nat) (k : Kind) : IsPoint (genPt lib b k) b k (lib.gen k) := by
  cases k <;> exact ⟨rfl, rfl, rfl⟩

theorem val_add {p q : Point A B T} {b b' : Nat} {k : Kind} {v v' : Sum3 A B T} (hp : IsPoint p b k v)
    (hq : IsPoint q b' k v') : ∃ r, p.add q = .ok r ∧ IsPoint r b k (v + v') := by
  obtain ⟨p, pb⟩ := p
  obtain ⟨q, qb⟩ := q
  obtain ⟨rfl, rfl, rfl⟩ := hp
  obtain ⟨-, hk, rfl⟩ := hq
  cases p <;> cases q <;> simp only [Elem.kind, reduceCtorEq] at hk
  all_goals exact ⟨_, rfl, rfl, rfl, by simp [Elem.val]⟩

theorem add_other {p q : Point A B T} (hk : p.pt.kind ≠ q.pt.kind) : p.add q = .error .foreign := by
  obtain ⟨p, pb⟩ := p
  obtain ⟨q, qb⟩ := q
  cases p <;> cases q <;> first | rfl | exact absurd rfl hk

theorem val_mul {lib : BpGroup A B T} (hl : lib.Works) {p : Point A B T} {b : Nat} {k : Kind} {v : Sum3 A B T}
    (hp : IsPoint p b k v) (n : Int) : IsPoint (p.mul lib.pow n) b k (n • v) := by
  obtain ⟨p, pb⟩ := p
  obtain ⟨rfl, rfl, rfl⟩ := hp
  cases p with
  | g1 a => exact ⟨rfl, rfl, by simp [Elem.val, Point.mul]⟩
  | g2 a => exact ⟨rfl, rfl, by simp [Elem.val, Point.mul]⟩
  | gt t =>
    by_cases hn : n = 0
    · subst hn
      exact ⟨rfl, rfl, by simp [Elem.val, Point.mul]⟩
    · refine ⟨?_, ?_, ?_⟩
      · simp only [Point.mul, if_neg hn]
      · simp only [Point.mul, if_neg hn]; rfl
      · simp only [Point.mul, if_neg hn, Elem.val, hl.pow t n hn]
        simp

theorem kind_mul {pow : T → Int → T} (p : Point A B T) (n : Int) : (p.mul pow n).pt.kind = p.pt.kind := by
  obtain ⟨p, pb⟩ := p
  cases p with
  | g1 a => rfl
  | g2 a => rfl
  | gt t => simp only [Point.mul]; split <;> rfl

theorem val_sumGo {b : Nat} {k : Kind} : ∀ (ps : List (Point A B T)) {res : Point A B T} {v : Sum3 A B T},
    IsPoint res b k v → (∀ p ∈ ps, p.pt.kind = k) →
    ∃ r, sumGo res ps = .ok r ∧ IsPoint r b k (v + (ps.map (·.pt.val)).sum)
  | [], res, v, hr, _ => ⟨res, rfl, by simpa using hr⟩
  | p :: ps, res, v, hr, hk => by
    obtain ⟨r1, e1, i1⟩ := val_add hr ⟨rfl, hk p (by simp), rfl⟩
    obtain ⟨r2, e2, i2⟩ := val_sumGo ps i1 fun q hq => hk q (by simp [hq])
    refine ⟨r2, ?_, ?_⟩
    · simp only [sumGo, e1]; exact e2
    · simpa [add_assoc] using i2

theorem val_wsumGo {lib : BpGroup A B T} (hl : lib.Works) {b : Nat} {k : Kind} :
    ∀ (ws : List Int) (ps : List (Point A B T)) {res : Point A B T} {v : Sum3 A B T},
    IsPoint res b k v → (∀ p ∈ ps.take ws.length, p.pt.kind = k) →
    ∃ r, wsumGo lib.pow res ws ps = .ok r ∧
      IsPoint r b k (v + (List.zipWith (fun w (p : Point A B T) => w • p.pt.val) ws ps).sum)
  | [], _, res, v, hr, _ => ⟨res, by simp only [wsumGo], by simpa using hr⟩
  | _ :: _, [], res, v, hr, _ => ⟨res, by simp only [wsumGo], by simpa using hr⟩
  | w :: ws, p :: ps, res, v, hr, hk => by
    obtain ⟨r1, e1, i1⟩ := val_add hr (val_mul hl ⟨rfl, hk p (by simp), rfl⟩ w)
    obtain ⟨r2, e2, i2⟩ := val_wsumGo hl ws ps i1 fun q hq => hk q (by simp [hq])
    refine ⟨r2, ?_, ?_⟩
    · simp only [wsumGo, e1]; exact e2
    · simpa [add_assoc] using i2

theorem sumGo_other {k : Kind} : ∀ (ps : List (Point A B T)) {res : Point A B T},
    res.pt.kind = k → (∃ p ∈ ps, p.pt.kind ≠ k) → sumGo res ps = .error .foreign
  | [], _, _, h => by obtain ⟨_, h, _⟩ := h; cases h
  | p :: ps, res, hr, hk => by
    by_cases h1 : p.pt.kind = k
    · obtain ⟨r1, e1, i1⟩ := val_add ⟨rfl, hr, rfl⟩ ⟨rfl, h1, rfl⟩
      obtain ⟨q, hq, hne⟩ := hk
      rcases List.mem_cons.mp hq with rfl | hq
      · exact absurd h1 hne
      · simp only [sumGo, e1]
        exact sumGo_other ps i1.kind ⟨q, hq, hne⟩
    · simp only [sumGo, add_other (p := res) (q := p) (by rw [hr]; exact Ne.symm h1)]
      rfl

theorem wsumGo_other {lib : BpGroup A B T} {k : Kind} : ∀ (ws : List Int) (ps : List (Point A B T)) {res : Point A B T},
    res.pt.kind = k → (∃ p ∈ ps.take ws.length, p.pt.kind ≠ k) → wsumGo lib.pow res ws ps = .error .foreign
  | [], _, _, _, h => by obtain ⟨_, h, _⟩ := h; simp at h
  | _ :: _, [], _, _, h => by obtain ⟨_, h, _⟩ := h; simp at h
  | w :: ws, p :: ps, res, hr, hk => by
    by_cases h1 : p.pt.kind = k
    · obtain ⟨r1, e1, i1⟩ := val_add ⟨rfl, hr, rfl⟩
        (⟨rfl, (kind_mul (pow := lib.pow) p w).trans h1, rfl⟩ : IsPoint (p.mul lib.pow w) _ _ _)
      obtain ⟨q, hq, hne⟩ := hk
      simp only [List.length_cons, List.take_succ_cons] at hq
      rcases List.mem_cons.mp hq with rfl | hq
      · exact absurd h1 hne
      · simp only [wsumGo, e1]
        exact wsumGo_other ws ps i1.kind ⟨q, hq, hne⟩
    · have : res.pt.kind ≠ (p.mul lib.pow w).pt.kind := by rw [hr, kind_mul]; exact Ne.symm h1
      simp only [wsumGo, add_other this]
      rfl

theorem pair_mul (lib : BpGroup A B T) (hl : lib.Works) (a : A) (c : B) (m n : Int) :
    lib.pair (m • a) (n • c) = lib.pair a c ^ (m * n) := by
  let f : A →+ Additive T := AddMonoidHom.mk' (fun a => Additive.ofMul (lib.pair a (n • c)))
    fun x y => congrArg Additive.ofMul (hl.pair_left x y _)
  let g : B →+ Additive T := AddMonoidHom.mk' (fun c => Additive.ofMul (lib.pair a c))
    fun x y => congrArg Additive.ofMul (hl.pair_right a x y)
  have h1 : f (m • a) = m • f a := map_zsmul f m a
  have h2 : g (n • c) = n • g c := map_zsmul g n c
  have h3 : Additive.ofMul (lib.pair (m • a) (n • c)) = m • n • Additive.ofMul (lib.pair a c) :=
    h1.trans (congrArg (m • ·) h2)
  rw [smul_smul] at h3
  exact h3

omit [AddCommGroup A] [AddCommGroup B] [CommGroup T] in
theorem abstractGroup_inj (lib : BpGroup A B T) {b b' : Nat} {k k' : Kind}
    (h : abstractGroup lib b k = abstractGroup lib b' k') : b = b' ∧ k = k' := by
  cases k <;> cases k' <;> simp only [abstractGroup, Grp.mk.injEq, and_true] at h <;>
    first | exact ⟨by omega, rfl⟩ | omega

theorem abstract_of (lib : BpGroup A B T) {p : Point A B T} {b : Nat} {k : Kind} {v : Sum3 A B T}
    (h : IsPoint p b k v) : abstractPoint lib p = ⟨abstractGroup lib b k, v⟩ := by
  obtain ⟨rfl, rfl, rfl⟩ := h
  rfl

theorem abstract_add (lib : BpGroup A B T) (p q : Point A B T) (hb : p.bp = q.bp) :
    (p.add q).map (abstractPoint lib) = (abstractPoint lib p).add (abstractPoint lib q) := by
  by_cases hk : p.pt.kind = q.pt.kind
  · obtain ⟨r, e, i⟩ := val_add (p := p) (q := q) ⟨rfl, rfl, rfl⟩ ⟨rfl, hk.symm, rfl⟩
    rw [e]
    simp only [Except.map, abstract_of lib i]
    simp only [Pt.add, abstractPoint, hb, hk, if_true]
  · rw [add_other hk]
    have : ¬ (abstractPoint lib p).grp = (abstractPoint lib q).grp := fun h => hk (abstractGroup_inj lib h).2
    simp only [Pt.add, if_neg this]
    rfl

theorem abstract_mul (lib : BpGroup A B T) (hl : lib.Works) (p : Point A B T) (n : Int) :
    abstractPoint lib (p.mul lib.pow n) = Pt.smul n (abstractPoint lib p) :=
  abstract_of lib (val_mul hl ⟨rfl, rfl, rfl⟩ n)

theorem mul_bp (pow : T → Int → T) (p : Point A B T) (n : Int) : (p.mul pow n).bp = p.bp := by
  obtain ⟨p, pb⟩ := p
  cases p with
  | g1 a => rfl
  | g2 a => rfl
  | gt t => simp only [Point.mul]; split <;> rfl

theorem add_bp {p q r : Point A B T} (h : p.add q = .ok r) : r.bp = p.bp := by
  obtain ⟨p, pb⟩ := p
  obtain ⟨q, qb⟩ := q
  cases p <;> cases q <;> simp only [Point.add, reduceCtorEq, Except.ok.injEq] at h <;> (subst h; rfl)

theorem abstract_wsumGo (lib : BpGroup A B T) (hl : lib.Works) {b : Nat} : ∀ (ws : List Int) (ps : List (Point A B T))
    (res : Point A B T), res.bp = b → (∀ p ∈ ps, p.bp = b) →
    (Bp.wsumGo lib.pow res ws ps).map (abstractPoint lib) =
      Zksk.wsumGo (abstractPoint lib res) (ws.map .int) (ps.map (abstractPoint lib))
  | [], _, _, _, _ => by simp only [Bp.wsumGo, List.map_nil, Zksk.wsumGo]; rfl
  | _ :: _, [], _, _, _ => by simp only [Bp.wsumGo, List.map_nil]; rfl
  | w :: ws, p :: ps, res, hr, hp => by
    have h1 := abstract_add lib res (p.mul lib.pow w) (by rw [mul_bp, hr, hp p (by simp)])
    rw [abstract_mul lib hl] at h1
    simp only [List.map_cons, Bp.wsumGo, Zksk.wsumGo, Val.asInt]
    cases hx : res.add (p.mul lib.pow w) with
    | error e =>
      rw [hx] at h1
      change Except.error e = (abstractPoint lib res).add _ at h1
      change Except.error e = ((abstractPoint lib res).add _ >>= fun acc => _)
      rw [← h1]
      rfl
    | ok r =>
      rw [hx] at h1
      change Except.ok (abstractPoint lib r) = (abstractPoint lib res).add _ at h1
      change (Bp.wsumGo lib.pow r ws ps).map _ = ((abstractPoint lib res).add _ >>= fun acc => _)
      rw [← h1]
      exact abstract_wsumGo lib hl ws ps r ((add_bp hx).trans hr) fun q hq => hp q (by simp [hq])

end

end Zksk.Bp
