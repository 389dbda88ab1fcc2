import Verif.Lemmas.ObjectsRun
import Verif.SpecObjects

/-! Calls that raise: agreement with the functions that forget, and what such calls leave behind. -/

set_option linter.unusedSectionVars false

namespace Zksk.Share

open Spec

variable {E : Type} [AddCommGroup E] [DecidableEq E]

/-! ### Agreement -/

/-- The same program, forgetting effects when it raises. -/
def forget {α : Type} (x : KM E α) (h : Objects E) : PM (α × Objects E) := fun w =>
  match x (h, w) with
  | (.ok a, (h', w')) => .ok ((a, h'), w')
  | (.error e, _) => .error e

theorem forget_pure {α : Type} (a : α) (h : Objects E) : forget (pure a : KM E α) h = pure (a, h) := rfl

theorem forget_fail {α : Type} (e : Err) (h : Objects E) : forget (KM.fail e : KM E α) h = raise e := rfl

theorem forget_bind {α β : Type} (x : KM E α) (f : α → KM E β) (h : Objects E) :
    forget (x >>= f) h = forget x h >>= fun y => forget (f y.1) y.2 := by
  funext w
  show _ = StateT.bind _ _ w
  unfold StateT.bind forget
  show (match (match x (h, w) with | (.ok a, s') => f a s' | (.error e, s') => (.error e, s')) with
    | (.ok a, (h', w')) => _ | (.error e, _) => _) = _
  rcases hx : x (h, w) with ⟨r | a, h1, w1⟩
  · simp only; rfl
  · simp only; rfl

theorem forget_objects_bind {β : Type} (f : Objects E → KM E β) (h : Objects E) :
    forget (KM.objects >>= f) h = forget (f h) h := rfl

theorem forget_setObjects_bind {β : Type} (h1 : Objects E) (f : Unit → KM E β) (h : Objects E) :
    forget (KM.setObjects h1 >>= f) h = forget (f ()) h1 := rfl

theorem forget_other_bind {α β : Type} (x : PM α) (f : α → KM E β) (h : Objects E) :
    forget (KM.other x >>= f) h = x >>= fun a => forget (f a) h := by
  rw [forget_bind]
  funext w
  show StateT.bind _ _ w = StateT.bind _ _ w
  unfold StateT.bind forget KM.other
  simp only
  cases x w with
  | error e => rfl
  | ok y => rfl

theorem forget_all {get : Nat → KM E (Option (HProver E))} {get' : Objects E → Nat → PM (Option (HProver E) × Objects E)}
    (hg : ∀ r h, forget (get r) h = get' h r) : ∀ (rs : List Nat) (h : Objects E),
      forget (Objects.tryAll get rs) h = Objects.getAll get' rs h
  | [], h => rfl
  | r :: rs, h => by
    simp only [Objects.tryAll, Objects.getAll, forget_bind, forget_pure, hg, forget_all hg rs]

theorem forget_any {get : Nat → KM E (Option (HProver E))} {get' : Objects E → Nat → PM (Option (HProver E) × Objects E)}
    (hg : ∀ r h, forget (get r) h = get' h r) (rs : List Nat) : ∀ (fuel : Nat) (possible : List Nat) (h : Objects E),
      forget (Objects.tryAny get rs fuel possible) h = Objects.getAny get' rs fuel possible h
  | 0, _, h => rfl
  | fuel + 1, possible, h => by
    simp only [Objects.tryAny, Objects.getAny]
    split
    · rfl
    · rw [forget_other_bind]
      congr 1
      funext i
      cases rs[i]? with
      | none => rfl
      | some r =>
        simp only [forget_bind, hg]
        congr 1
        funext y
        obtain ⟨p, h1⟩ := y
        cases p with
        | none => exact forget_any hg rs fuel _ h1
        | some p => rfl

theorem forget_getProver (d : Dict Int) : ∀ (n r : Nat) (h : Objects E),
    forget (Objects.tryGetProver d n r) h = Objects.getProver d n h r
  | 0, _, _ => rfl
  | n + 1, r, h => by
    simp only [Objects.tryGetProver, Objects.getProver, forget_objects_bind]
    cases h.objs[r]? with
    | none => rfl
    | some o =>
      cases o with
      | rep lhs bases vars v b =>
        simp only
        cases h.dicts[v]? with
        | none => rfl
        | some vals0 =>
          simp only [forget_other_bind, forget_setObjects_bind]
          congr 1
          funext σ
          split <;> rfl
      | all l b =>
        simp only
        cases h.lists[l]? with
        | none => rfl
        | some rs =>
          simp only [forget_other_bind]
          congr 1
          funext σ
          congr 1
          funext _
          split
          · rfl
          · rw [forget_bind, forget_all (forget_getProver d n) rs h]
            congr 1
            funext y
            obtain ⟨ps, h1⟩ := y
            simp only
            cases PTree.allSome ps <;> rfl
      | any l b =>
        simp only
        cases h.lists[l]? with
        | none => rfl
        | some rs =>
          simp only [forget_other_bind]
          congr 1
          funext σ
          congr 1
          funext _
          split
          · rfl
          · rw [forget_bind, forget_any (forget_getProver d n) rs _ _ h]
            congr 1
            funext y
            obtain ⟨x, h1⟩ := y
            cases x with
            | none => rfl
            | some x =>
              obtain ⟨i, p⟩ := x
              simp only [forget_objects_bind]
              cases PTree.allSome (rs.map (h1.read n)) with
              | none => rfl
              | some ts => simp only [forget_other_bind]; rfl

/-- `get_prover` with effects that stay and without. -/
theorem forget_prover (r : Nat) (d : Dict Int) (h : Objects E) :
    forget (Objects.tryProver r d) h = h.proverOf r d := by
  unfold Objects.tryProver Objects.proverOf
  rw [forget_objects_bind, forget_getProver]

/-- `prove` with effects that stay and without. -/
theorem forget_prove (env : Env E) (r : Nat) (d : Dict Int) (msg : String) (h : Objects E) :
    forget (Objects.tryProve env r d msg) h = h.prove env r d msg := by
  unfold Objects.tryProve Objects.prove
  rw [forget_bind, forget_prover]
  congr 1
  funext y
  obtain ⟨p, h1⟩ := y
  cases p with
  | none => rfl
  | some p =>
    simp only [forget_objects_bind]
    cases p.see h1 with
    | none => rfl
    | some q => simp only [forget_other_bind]; rfl

/-- `simulate` with effects that stay and without. -/
theorem forget_simulate (env : Env E) (r : Nat) (c : Option Int) (h : Objects E) :
    forget (Objects.trySimulate env r c) h = h.simulate env r c := by
  unfold Objects.trySimulate Objects.simulate
  rw [forget_objects_bind, forget_setObjects_bind]
  cases (h.setSimulated r true).tree r with
  | none => rfl
  | some t => simp only [forget_other_bind]; rfl

/-! ### What is left behind -/

/-- Some representations in `R` have been marked, and their dictionaries changed. -/
structure Left (R : Nat → Prop) (h h' : Objects E) : Prop where
  lists : h'.lists = h.lists
  objs : ∀ q : Nat, h'.objs[q]? = h.objs[q]? ∨ R q ∧ ∃ lhs bases vars v b,
    h.objs[q]? = some (Obj.rep lhs bases vars v b) ∧ h'.objs[q]? = some (Obj.rep lhs bases vars v true)
  dicts : ∀ v : Nat, h'.dicts[v]? = h.dicts[v]? ∨
    (∃ q lhs bases vars b, R q ∧ h.objs[q]? = some (Obj.rep lhs bases vars v b)) ∧ ∃ vals vals',
      h.dicts[v]? = some vals ∧ h'.dicts[v]? = some vals'

theorem Left.refl (R : Nat → Prop) (h : Objects E) : Left R h h := ⟨rfl, fun _ => .inl rfl, fun _ => .inl rfl⟩

theorem Left.mono {R R' : Nat → Prop} {h h' : Objects E} (hR : ∀ q, R q → R' q) (hl : Left R h h') : Left R' h h' := by
  refine ⟨hl.lists, fun q => (hl.objs q).imp id fun x => ⟨hR q x.1, x.2⟩, fun v => (hl.dicts v).imp id ?_⟩
  rintro ⟨⟨q, lhs, bases, vars, b, h1, h2⟩, h3⟩
  exact ⟨⟨q, lhs, bases, vars, b, hR q h1, h2⟩, h3⟩

theorem Left.rep_back {R : Nat → Prop} {h h' : Objects E} (hl : Left R h h') {q v : Nat} {lhs : Pt E} {bases : List (Pt E)}
    {vars : List Sec} {b : Bool} (e : h'.objs[q]? = some (.rep lhs bases vars v b)) :
    ∃ b', h.objs[q]? = some (Obj.rep lhs bases vars v b') := by
  rcases hl.objs q with e1 | ⟨_, a1, a2, a3, a4, a5, e1, e2⟩
  · exact ⟨b, by rw [← e1]; exact e⟩
  · rw [e2] at e
    injection e with e
    simp only [Obj.rep.injEq] at e
    obtain ⟨rfl, rfl, rfl, rfl, _⟩ := e
    exact ⟨a5, e1⟩

theorem Left.trans {R : Nat → Prop} {h h' h'' : Objects E} (h1 : Left R h h') (h2 : Left R h' h'') : Left R h h'' := by
  refine ⟨h2.lists.trans h1.lists, fun q => ?_, fun v => ?_⟩
  · rcases h2.objs q with e2 | ⟨r2, a1, a2, a3, a4, a5, e2, e3⟩
    · rw [e2]; exact h1.objs q
    · obtain ⟨b', e4⟩ := h1.rep_back e2
      exact .inr ⟨r2, a1, a2, a3, a4, b', e4, e3⟩
  · rcases h2.dicts v with e2 | ⟨⟨q, a1, a2, a3, a5, r2, e2⟩, vals, vals', e3, e4⟩
    · rw [e2]; exact h1.dicts v
    · obtain ⟨b', e5⟩ := h1.rep_back e2
      refine .inr ⟨⟨q, a1, a2, a3, b', r2, e5⟩, ?_⟩
      rcases h1.dicts v with e6 | ⟨_, vals1, _, e6, _⟩
      · exact ⟨vals, vals', by rw [← e6]; exact e3, e4⟩
      · exact ⟨vals1, vals', e6, e4⟩

/-- Compositions are as they were. -/
theorem Left.comps {R : Nat → Prop} {h h' : Objects E} (hl : Left R h h') {r q : Nat} (hr : Reaches h' r q) :
    Reaches h r q := by
  induction hr with
  | self => exact .self _
  | all r l b rs p q ho hl' hp _ ih =>
    rcases hl.objs r with e | ⟨_, a1, a2, a3, a4, a5, _, e⟩
    · exact .all r l b rs p q (e ▸ ho) (hl.lists ▸ hl') hp ih
    · rw [e] at ho; cases ho
  | any r l b rs p q ho hl' hp _ ih =>
    rcases hl.objs r with e | ⟨_, a1, a2, a3, a4, a5, _, e⟩
    · exact .any r l b rs p q (e ▸ ho) (hl.lists ▸ hl') hp ih
    · rw [e] at ho; cases ho

/-- Running a sequence of programs. -/
theorem km_bind {α β : Type} (x : KM E α) (f : α → KM E β) (s : Objects E × World) :
    (x >>= f) s = (match x s with | (.ok a, s') => f a s' | (.error e, s') => (.error e, s')) := rfl

/-- A sequence of programs leaves what the two parts leave. -/
theorem left_bind {α β : Type} {R : Nat → Prop} {x : KM E α} {f : α → KM E β} {s : Objects E × World}
    (hx : Left R s.1 (x s).2.1) (hf : ∀ a, (x s).1 = .ok a → Left R (x s).2.1 (f a (x s).2).2.1) :
    Left R s.1 ((x >>= f) s).2.1 := by
  rw [km_bind]
  rcases hr : x s with ⟨r | a, s'⟩
  · simpa only [hr] using hx
  · have := hf a (by rw [hr])
    rw [hr] at this hx
    exact hx.trans this

theorem left_other {α β : Type} {R : Nat → Prop} {x : PM α} {f : α → KM E β} {s : Objects E × World}
    (hf : ∀ a w', Left R s.1 (f a (s.1, w')).2.1) : Left R s.1 ((KM.other x >>= f) s).2.1 := by
  rw [km_bind]
  unfold KM.other
  cases x s.2 with
  | error e => exact Left.refl _ _
  | ok y => exact hf y.1 y.2

theorem left_all {get : Nat → KM E (Option (HProver E))} (hg : ∀ r s, Left (Reaches s.1 r) s.1 (get r s).2.1) :
    ∀ (rs : List Nat) (s : Objects E × World), Left (fun q => ∃ r ∈ rs, Reaches s.1 r q) s.1 (Objects.tryAll get rs s).2.1
  | [], s => Left.refl _ _
  | r :: rs, s => by
    have h1 := hg r s
    refine left_bind (h1.mono fun q hq => ⟨r, by simp, hq⟩) fun a _ => ?_
    refine left_bind ((left_all hg rs _).mono ?_) fun _ _ => Left.refl _ _
    rintro q ⟨r', hr', hq⟩
    exact ⟨r', by simp [hr'], h1.comps hq⟩

theorem left_any {get : Nat → KM E (Option (HProver E))} (hg : ∀ r s, Left (Reaches s.1 r) s.1 (get r s).2.1) (rs : List Nat) :
    ∀ (fuel : Nat) (possible : List Nat) (s : Objects E × World),
      Left (fun q => ∃ r ∈ rs, Reaches s.1 r q) s.1 (Objects.tryAny get rs fuel possible s).2.1
  | 0, possible, s => Left.refl _ _
  | fuel + 1, possible, s => by
    simp only [Objects.tryAny]
    split
    · exact Left.refl _ _
    · refine left_other fun i w' => ?_
      cases hi : rs[i]? with
      | none => exact Left.refl _ _
      | some r =>
        have hm := List.mem_of_getElem? hi
        have h1 := hg r (s.1, w')
        refine left_bind (x := get r) (s := (s.1, w')) (h1.mono fun q hq => ⟨r, hm, hq⟩) fun p _ => ?_
        cases p with
        | some p => exact Left.refl _ _
        | none =>
          refine (left_any hg rs fuel _ _).mono ?_
          rintro q ⟨r', hr', hq⟩
          exact ⟨r', hr', h1.comps hq⟩

/-- Whatever `get_prover` does, it only marks representations that are parts of the statement and changes their
dictionaries. -/
theorem left_getProver (d : Dict Int) : ∀ (n r : Nat) (s : Objects E × World),
    Left (Reaches s.1 r) s.1 (Objects.tryGetProver d n r s).2.1
  | 0, r, s => Left.refl _ _
  | n + 1, r, s => by
    simp only [Objects.tryGetProver]
    show Left (Reaches s.1 r) s.1 ((match s.1.objs[r]? with
      | none => KM.fail .attributeError | some (.rep lhs bases vars v _) => _ | some (.all l b) => _ | some (.any l b) => _ :
      KM E (Option (HProver E))) s).2.1
    cases ho : s.1.objs[r]? with
    | none => exact Left.refl _ _
    | some o =>
      cases o with
      | rep lhs bases vars v b =>
        simp only
        cases hv : s.1.dicts[v]? with
        | none => exact Left.refl _ _
        | some vals0 =>
          refine left_other fun σ w' => ?_
          have key : Left (Reaches s.1 r) s.1 ⟨s.1.objs.set r (.rep lhs bases vars v true),
              s.1.dicts.set v (Dict.update σ vals0 d), s.1.lists⟩ := by
            refine ⟨rfl, fun q => ?_, fun v' => ?_⟩
            · by_cases hr : r = q
              · subst hr
                exact .inr ⟨.self r, lhs, bases, vars, v, b, ho, by simp [(List.getElem?_eq_some_iff.mp ho).1]⟩
              · exact .inl (by simp [hr])
            · by_cases hvv : v = v'
              · subst hvv
                exact .inr ⟨⟨r, lhs, bases, vars, b, .self r, ho⟩, vals0, _, hv, by simp [(List.getElem?_eq_some_iff.mp hv).1]; rfl⟩
              · exact .inl (by simp [hvv])
          refine left_bind (x := KM.setObjects _) (s := (s.1, w')) key fun _ _ => ?_
          split <;> exact Left.refl _ _
      | all l b =>
        simp only
        cases hl : s.1.lists[l]? with
        | none => exact Left.refl _ _
        | some rs =>
          refine left_other fun σ w' => ?_
          refine left_other (s := (s.1, w')) fun _ w'' => ?_
          split
          · exact Left.refl _ _
          · refine left_bind (s := (s.1, w'')) ((left_all (left_getProver d n) rs (s.1, w'')).mono ?_) fun ps _ => ?_
            · rintro q ⟨r', hr', hq⟩
              exact .all r l b rs r' q ho hl hr' hq
            · cases PTree.allSome ps <;> exact Left.refl _ _
      | any l b =>
        simp only
        cases hl : s.1.lists[l]? with
        | none => exact Left.refl _ _
        | some rs =>
          refine left_other fun σ w' => ?_
          refine left_other (s := (s.1, w')) fun _ w'' => ?_
          split
          · exact Left.refl _ _
          · refine left_bind (s := (s.1, w'')) ((left_any (left_getProver d n) rs _ _ (s.1, w'')).mono ?_) fun x _ => ?_
            · rintro q ⟨r', hr', hq⟩
              exact .any r l b rs r' q ho hl hr' hq
            · cases x with
              | none => exact Left.refl _ _
              | some x =>
                obtain ⟨i, p⟩ := x
                refine left_bind (x := KM.objects) (Left.refl _ _) fun h1 _ => ?_
                cases PTree.allSome (rs.map (h1.read n)) with
                | none => exact Left.refl _ _
                | some ts => exact left_other fun y w3 => Left.refl _ _

theorem left_prover (r : Nat) (d : Dict Int) (s : Objects E × World) :
    Left (Reaches s.1 r) s.1 (Objects.tryProver r d s).2.1 := left_getProver d _ r s

theorem left_prove (env : Env E) (r : Nat) (d : Dict Int) (msg : String) (s : Objects E × World) :
    Left (Reaches s.1 r) s.1 (Objects.tryProve env r d msg s).2.1 := by
  unfold Objects.tryProve
  refine left_bind (left_prover r d s) fun p _ => ?_
  cases p with
  | none => exact Left.refl _ _
  | some p =>
    refine left_bind (x := KM.objects) (Left.refl _ _) fun h1 _ => ?_
    cases p.see h1 with
    | none => exact Left.refl _ _
    | some q => exact left_other fun _ _ => Left.refl _ _

theorem simulate_leaves (env : Env E) (r : Nat) (c : Option Int) (s : Objects E × World) :
    (Objects.trySimulate env r c s).2.1 = s.1.setSimulated r true := by
  unfold Objects.trySimulate
  show ((match (s.1.setSimulated r true).tree r with | none => _ | some t => _ : KM E _) (s.1.setSimulated r true, s.2)).2.1 = _
  cases (s.1.setSimulated r true).tree r with
  | none => rfl
  | some t =>
    simp only [km_bind, KM.other]
    cases simulateTop env t c s.2 <;> rfl

end Zksk.Share
