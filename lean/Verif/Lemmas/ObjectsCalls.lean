import Verif.Lemmas.ObjectsFail

/-! What calls on statement objects change. -/

set_option linter.unusedSectionVars false

namespace Zksk.Share

open Spec

variable {E : Type} [AddCommGroup E] [DecidableEq E]

/-- Everything stays, except that dictionaries may have other contents, objects in `R` other marks, and there
may be more objects. -/
structure Grown (R : Nat → Obj E → Prop) (h h' : Objects E) : Prop where
  lists : ∀ (l : Nat) rs, h.lists[l]? = some rs → h'.lists[l]? = some rs
  dicts : ∀ (v : Nat) vals, h.dicts[v]? = some vals → ∃ vals', h'.dicts[v]? = some vals'
  objs : ∀ (q : Nat) o, h.objs[q]? = some o →
    h'.objs[q]? = some o ∨ (R q o ∧ ∃ b, h'.objs[q]? = some (Obj.setSimulated b o))
  length : h.objs.length ≤ h'.objs.length

theorem Grown.refl (R : Nat → Obj E → Prop) (h : Objects E) : Grown R h h :=
  ⟨fun _ _ e => e, fun _ vals e => ⟨vals, e⟩, fun _ _ e => .inl e, le_refl _⟩

theorem Grown.mono {R R' : Nat → Obj E → Prop} {h h' : Objects E} (hR : ∀ q o, R q o → R' q o) (hg : Grown R h h') : Grown R' h h' := by
  refine ⟨hg.lists, hg.dicts, fun q o e => ?_, hg.length⟩
  rcases hg.objs q o e with h1 | ⟨h1, h2⟩
  · exact .inl h1
  · exact .inr ⟨hR q o h1, h2⟩

theorem setSimulated_twice (a b : Bool) (o : Obj E) : Obj.setSimulated a (Obj.setSimulated b o) = Obj.setSimulated a o := by
  cases o <;> rfl

theorem Grown.trans {R : Nat → Obj E → Prop} {h h' h'' : Objects E}
    (hR : ∀ q o b, R q (Obj.setSimulated b o) ↔ R q o) (h1 : Grown R h h') (h2 : Grown R h' h'') : Grown R h h'' := by
  refine ⟨fun l rs e => h2.lists l rs (h1.lists l rs e), fun v vals e => ?_, fun q o e => ?_, le_trans h1.length h2.length⟩
  · obtain ⟨vals', e'⟩ := h1.dicts v vals e
    exact h2.dicts v vals' e'
  · rcases h1.objs q o e with e1 | ⟨hq, b, e1⟩
    · exact h2.objs q o e1
    · rcases h2.objs q _ e1 with e2 | ⟨_, b', e2⟩
      · exact .inr ⟨hq, b, e2⟩
      · exact .inr ⟨hq, b', by rw [e2, setSimulated_twice]⟩

theorem reaches_trans {h : Objects E} {a b c : Nat} (h1 : Reaches h a b) (h2 : Reaches h b c) : Reaches h a c := by
  induction h1 with
  | self => exact h2
  | all r l b rs p q ho hl hp _ ih => exact .all r l b rs p _ ho hl hp (ih h2)
  | any r l b rs p q ho hl hp _ ih => exact .any r l b rs p _ ho hl hp (ih h2)

/-- What could be reached still can. -/
theorem reaches_grown {R : Nat → Obj E → Prop} {h h' : Objects E} (hg : Grown R h h') {r q : Nat} (hr : Reaches h r q) :
    Reaches h' r q := by
  induction hr with
  | self => exact .self _
  | all r l b rs p q ho hl hp _ ih =>
    rcases hg.objs r _ ho with e | ⟨_, b', e⟩
    · exact .all r l b rs p q e (hg.lists l rs hl) hp ih
    · exact .all r l b' rs p q e (hg.lists l rs hl) hp ih
  | any r l b rs p q ho hl hp _ ih =>
    rcases hg.objs r _ ho with e | ⟨_, b', e⟩
    · exact .any r l b rs p q e (hg.lists l rs hl) hp ih
    · exact .any r l b' rs p q e (hg.lists l rs hl) hp ih

/-- From an object that can be read, nothing more can be reached than before. -/
theorem reaches_back {R : Nat → Obj E → Prop} {h h' : Objects E} (hg : Grown R h h') : ∀ (n r : Nat) (t : Core E),
    h.read n r = some t → ∀ q, Reaches h' r q → Reaches h r q
  | 0, _, _, hr, _, _ => by simp [Objects.read] at hr
  | n + 1, r, t, hr, q, hq => by
    simp only [Objects.read] at hr
    cases ho : h.objs[r]? with
    | none => simp [ho] at hr
    | some o =>
      have hobj := hg.objs r o ho
      cases o with
      | rep lhs bases vars v b =>
        cases hq with
        | self => exact .self r
        | all _ l b rs p _ ho' => rcases hobj with e | ⟨_, b', e⟩ <;> rw [e] at ho' <;> simp [Obj.setSimulated] at ho'
        | any _ l b rs p _ ho' => rcases hobj with e | ⟨_, b', e⟩ <;> rw [e] at ho' <;> simp [Obj.setSimulated] at ho'
      | all l b =>
        simp only [ho] at hr
        cases hl : h.lists[l]? with
        | none => simp [hl] at hr
        | some rs =>
          simp only [hl, Option.bind_some, Option.map_eq_some_iff] at hr
          obtain ⟨ts, hts, _⟩ := hr
          cases hq with
          | self => exact .self r
          | all _ l' b' rs' p _ ho' hl' hp hq =>
            have : l' = l := by
              rcases hobj with e | ⟨_, b', e⟩ <;> rw [e] at ho' <;> simp [Obj.setSimulated] at ho' <;> exact ho'.1.symm
            subst this
            rw [hg.lists _ _ hl] at hl'
            injection hl' with hl'
            subst hl'
            obtain ⟨i, hi⟩ := List.mem_iff_getElem?.mp hp
            obtain ⟨u, _, hu⟩ := reads_get hts hi
            exact .all r l' b rs p q ho hl hp (reaches_back hg n p u hu q hq)
          | any _ l' b' rs' p _ ho' => rcases hobj with e | ⟨_, b', e⟩ <;> rw [e] at ho' <;> simp [Obj.setSimulated] at ho'
      | any l b =>
        simp only [ho] at hr
        cases hl : h.lists[l]? with
        | none => simp [hl] at hr
        | some rs =>
          simp only [hl, Option.bind_some, Option.map_eq_some_iff] at hr
          obtain ⟨ts, hts, _⟩ := hr
          cases hq with
          | self => exact .self r
          | any _ l' b' rs' p _ ho' hl' hp hq =>
            have : l' = l := by
              rcases hobj with e | ⟨_, b', e⟩ <;> rw [e] at ho' <;> simp [Obj.setSimulated] at ho' <;> exact ho'.1.symm
            subst this
            rw [hg.lists _ _ hl] at hl'
            injection hl' with hl'
            subst hl'
            obtain ⟨i, hi⟩ := List.mem_iff_getElem?.mp hp
            obtain ⟨u, _, hu⟩ := reads_get hts hi
            exact .any r l' b rs p q ho hl hp (reaches_back hg n p u hu q hq)
          | all _ l' b' rs' p _ ho' => rcases hobj with e | ⟨_, b', e⟩ <;> rw [e] at ho' <;> simp [Obj.setSimulated] at ho'

/-- The object is a representation. -/
def isRep : Obj E → Prop
  | .rep .. => True
  | _ => False

theorem isRep_setSimulated (o : Obj E) (b : Bool) : isRep (Obj.setSimulated b o) ↔ isRep o := by cases o <;> rfl

/-- The same statement with the same marks, or with other marks: of representations if `M`, of
compositions if `N`.  The values may differ. -/
inductive Alike (M N : Prop) : Core E → Core E → Prop
  | leaf (s s' : DLRep E) (hn : s'.norm = s.norm) (hm : s'.simulated = s.simulated ∨ M) : Alike M N (.leaf s) (.leaf s')
  | and (b b' : Bool) (ts ts' : List (Core E)) (hb : b' = b ∨ N) (hl : ts'.length = ts.length)
      (h : ∀ (i : Nat) t t', ts[i]? = some t → ts'[i]? = some t' → Alike M N t t') : Alike M N (.and b ts) (.and b' ts')
  | or (b b' : Bool) (ts ts' : List (Core E)) (hb : b' = b ∨ N) (hl : ts'.length = ts.length)
      (h : ∀ (i : Nat) t t', ts[i]? = some t → ts'[i]? = some t' → Alike M N t t') : Alike M N (.or b ts) (.or b' ts')

theorem alike_blank {M N : Prop} {t t' : Core E} (h : Alike M N t t') : Tree.blank t' = Tree.blank t := by
  induction h with
  | leaf s s' hn _ => exact congrArg Tree.leaf hn
  | and b b' ts ts' _ hl _ ih => simp only [Tree.blank, blankL_of_get hl ih]
  | or b b' ts ts' _ hl _ ih => simp only [Tree.blank, blankL_of_get hl ih]

/-- Readings after calls. -/
theorem read_grown {R : Nat → Obj E → Prop} {M N : Prop} {h h' : Objects E} (hg : Grown R h h') : ∀ (n r : Nat) (t : Core E),
    h.read n r = some t → (∀ q o, Reaches h r q → h.objs[q]? = some o → R q o → (isRep o → M) ∧ (¬ isRep o → N)) → ∃ t', h'.read n r = some t' ∧ Alike M N t t'
  | 0, _, _, hr, _ => by simp [Objects.read] at hr
  | n + 1, r, t, hr, hM => by
    have hrec : ∀ (rs : List Nat) (ts : List (Core E)), (∀ p ∈ rs, ∀ q o, Reaches h p q → h.objs[q]? = some o → R q o → (isRep o → M) ∧ (¬ isRep o → N)) →
        PTree.allSome (rs.map (h.read n)) = some ts →
        ∃ ts', PTree.allSome (rs.map (h'.read n)) = some ts' ∧ ts'.length = ts.length ∧
          ∀ (i : Nat) t t', ts[i]? = some t → ts'[i]? = some t' → Alike M N t t' := by
      intro rs ts hMs hts
      obtain ⟨ts', h1, h2, h3⟩ := reads_of (f := h'.read n) (rs := rs)
        (Q := fun i t' => ∀ t, ts[i]? = some t → Alike M N t t') (by
          intro i r hi
          obtain ⟨t, e1, e2⟩ := reads_get hts hi
          obtain ⟨t', e3, e4⟩ := read_grown hg n r t e2 (hMs r (List.mem_of_getElem? hi))
          refine ⟨t', e3, fun u hu => ?_⟩
          rw [e1] at hu
          exact Option.some.inj hu ▸ e4)
      exact ⟨ts', h1, h2.trans (reads_length hts).symm, fun i t t' e e' => h3 i t' e' t e⟩
    simp only [Objects.read] at hr ⊢
    cases ho : h.objs[r]? with
    | none => simp [ho] at hr
    | some o =>
      have hobj := hg.objs r o ho
      cases o with
      | rep lhs bases vars v b =>
        simp only [ho, Option.map_eq_some_iff] at hr
        obtain ⟨vals, h1, rfl⟩ := hr
        obtain ⟨vals', h2⟩ := hg.dicts v vals h1
        rcases hobj with e | ⟨hR, b', e⟩
        · simp only [e, h2, Option.map_some]
          exact ⟨_, rfl, .leaf _ _ rfl (.inl rfl)⟩
        · simp only [e, Obj.setSimulated, h2, Option.map_some]
          exact ⟨_, rfl, .leaf _ _ rfl (.inr ((hM r _ (.self r) ho hR).1 trivial))⟩
      | all l b =>
        simp only [ho] at hr
        cases hl : h.lists[l]? with
        | none => simp [hl] at hr
        | some rs =>
          simp only [hl, Option.bind_some, Option.map_eq_some_iff] at hr
          obtain ⟨ts, hts, rfl⟩ := hr
          obtain ⟨ts', k1, k2, k3⟩ := hrec rs ts (fun p hp q o hq => hM q o (.all r l b rs p q ho hl hp hq)) hts
          have hl' := hg.lists l rs hl
          rcases hobj with e | ⟨hR, b', e⟩
          · simp only [e, hl', Option.bind_some, k1, Option.map_some]
            exact ⟨_, rfl, .and _ _ _ _ (.inl rfl) k2 k3⟩
          · simp only [e, Obj.setSimulated, hl', Option.bind_some, k1, Option.map_some]
            exact ⟨_, rfl, .and _ _ _ _ (.inr ((hM r _ (.self r) ho hR).2 id)) k2 k3⟩
      | any l b =>
        simp only [ho] at hr
        cases hl : h.lists[l]? with
        | none => simp [hl] at hr
        | some rs =>
          simp only [hl, Option.bind_some, Option.map_eq_some_iff] at hr
          obtain ⟨ts, hts, rfl⟩ := hr
          obtain ⟨ts', k1, k2, k3⟩ := hrec rs ts (fun p hp q o hq => hM q o (.any r l b rs p q ho hl hp hq)) hts
          have hl' := hg.lists l rs hl
          rcases hobj with e | ⟨hR, b', e⟩
          · simp only [e, hl', Option.bind_some, k1, Option.map_some]
            exact ⟨_, rfl, .or _ _ _ _ (.inl rfl) k2 k3⟩
          · simp only [e, Obj.setSimulated, hl', Option.bind_some, k1, Option.map_some]
            exact ⟨_, rfl, .or _ _ _ _ (.inr ((hM r _ (.self r) ho hR).2 id)) k2 k3⟩

theorem tree_grown {R : Nat → Obj E → Prop} {M N : Prop} {h h' : Objects E} (hg : Grown R h h') {r : Nat} {t : Core E}
    (hr : h.tree r = some t) (hM : ∀ q o, Reaches h r q → h.objs[q]? = some o → R q o → (isRep o → M) ∧ (¬ isRep o → N)) : ∃ t', h'.tree r = some t' ∧ Alike M N t t' := by
  obtain ⟨t', h1, h2⟩ := read_grown hg _ r t hr hM
  exact ⟨t', read_mono h' _ _ r t' hg.length h1, h2⟩

/-! ### `get_prover` -/

theorem grown_set {h : Objects E} {r v : Nat} {lhs : Pt E} {bases : List (Pt E)} {vars : List Sec} {b : Bool}
    (vals : Dict Int) (ho : h.objs[r]? = some (.rep lhs bases vars v b)) :
    Grown (fun q o => q = r ∧ isRep o) h ⟨h.objs.set r (.rep lhs bases vars v true), h.dicts.set v vals, h.lists⟩ := by
  refine ⟨fun _ _ e => e, fun v' vals' e => ?_, fun q o e => ?_, by simp⟩
  · by_cases hv : v = v'
    · subst hv
      exact ⟨vals, by simp [(List.getElem?_eq_some_iff.mp e).1]⟩
    · exact ⟨vals', by simp [List.getElem?_set, hv, e]⟩
  · by_cases hr : r = q
    · subst hr
      rw [ho] at e
      injection e with e
      subst e
      exact .inr ⟨⟨rfl, trivial⟩, true, by simp [(List.getElem?_eq_some_iff.mp ho).1, Obj.setSimulated]⟩
    · exact .inl (by simp [List.getElem?_set, hr, e])

/-- Marks of compositions do not change. -/
def SameComps (h h' : Objects E) : Prop :=
  ∀ (q : Nat) o, h.objs[q]? = some o → (∀ lhs bases vars v b, o ≠ .rep lhs bases vars v b) → h'.objs[q]? = some o

theorem SameComps.trans {h h' h'' : Objects E} (h1 : SameComps h h') (h2 : SameComps h' h'') : SameComps h h'' :=
  fun q o e hn => h2 q o (h1 q o e hn) hn

theorem reaches_iff {h h' : Objects E} (hs : SameComps h h') (hl : h'.lists = h.lists) {r q : Nat}
    (hr : Reaches h r q) : Reaches h' r q := by
  induction hr with
  | self => exact .self _
  | all r l b rs p q ho hl' hp _ ih => exact .all r l b rs p q (hs r _ ho (by simp)) (by rw [hl]; exact hl') hp ih
  | any r l b rs p q ho hl' hp _ ih => exact .any r l b rs p q (hs r _ ho (by simp)) (by rw [hl]; exact hl') hp ih

/-- What `get_prover` changes. -/
structure Got (R : Nat → Prop) (h h' : Objects E) : Prop where
  grown : Grown (fun q o => R q ∧ isRep o) h h'
  comps : SameComps h h'
  lists : h'.lists = h.lists
  back : ∀ (q : Nat) l b, h'.objs[q]? = some (.all l b) ∨ h'.objs[q]? = some (.any l b) → h'.objs[q]? = h.objs[q]?

theorem Got.refl (R : Nat → Prop) (h : Objects E) : Got R h h :=
  ⟨Grown.refl _ h, fun _ _ e _ => e, rfl, fun _ _ _ _ => rfl⟩

theorem Got.mono {R R' : Nat → Prop} {h h' : Objects E} (hR : ∀ q, R q → R' q) (hg : Got R h h') : Got R' h h' :=
  ⟨hg.grown.mono fun q _ hq => ⟨hR q hq.1, hq.2⟩, hg.comps, hg.lists, hg.back⟩

theorem Got.trans {R : Nat → Prop} {h h' h'' : Objects E} (h1 : Got R h h') (h2 : Got R h' h'') : Got R h h'' := by
  refine ⟨h1.grown.trans (fun q o b => by rw [isRep_setSimulated]) h2.grown, h1.comps.trans h2.comps, h2.lists.trans h1.lists, fun q l b e => ?_⟩
  have e2 := h2.back q l b e
  rw [e2] at e ⊢
  exact h1.back q l b e

/-- Nothing more can be reached afterwards. -/
theorem Got.reaches {R : Nat → Prop} {h h' : Objects E} (hg : Got R h h') {r q : Nat} (hr : Reaches h' r q) :
    Reaches h r q := by
  induction hr with
  | self => exact .self _
  | all r l b rs p q ho hl hp _ ih =>
    exact .all r l b rs p q (by rw [← hg.back r l b (.inl ho)]; exact ho) (by rw [← hg.lists]; exact hl) hp ih
  | any r l b rs p q ho hl hp _ ih =>
    exact .any r l b rs p q (by rw [← hg.back r l b (.inr ho)]; exact ho) (by rw [← hg.lists]; exact hl) hp ih

theorem got_all {get : Objects E → Nat → PM (Option (HProver E) × Objects E)}
    (hget : ∀ h r w p h' w', get h r w = .ok ((p, h'), w') → Got (Reaches h r) h h') :
    ∀ (rs : List Nat) (h h' : Objects E) (ps : List (Option (HProver E))) (w w' : World),
      Objects.getAll get rs h w = .ok ((ps, h'), w') → Got (fun q => ∃ r ∈ rs, Reaches h r q) h h'
  | [], h, h', ps, w, w', e => by
    simp only [Objects.getAll, pm_pure_iff, Prod.mk.injEq] at e
    obtain ⟨⟨_, rfl⟩, _⟩ := e
    exact Got.refl _ h
  | r :: rs, h, h', ps, w, w', e => by
    simp only [Objects.getAll] at e
    obtain ⟨⟨p, h1⟩, w1, e1, e⟩ := pm_bind.mp e
    obtain ⟨⟨ps1, h2⟩, w2, e2, e⟩ := pm_bind.mp e
    simp only [pm_pure_iff, Prod.mk.injEq] at e
    obtain ⟨⟨_, rfl⟩, _⟩ := e
    have g1 := hget h r w p h1 w1 e1
    have g2 := got_all hget rs h1 h2 ps1 w1 w2 e2
    refine (g1.mono fun q hq => ⟨r, by simp, hq⟩).trans (g2.mono ?_)
    rintro q ⟨r', hr', hq⟩
    exact ⟨r', by simp [hr'], g1.reaches hq⟩

theorem got_any {get : Objects E → Nat → PM (Option (HProver E) × Objects E)}
    (hget : ∀ h r w p h' w', get h r w = .ok ((p, h'), w') → Got (Reaches h r) h h') (rs : List Nat) :
    ∀ (fuel : Nat) (possible : List Nat) (h h' : Objects E) (x : Option (Nat × HProver E)) (w w' : World),
      Objects.getAny get rs fuel possible h w = .ok ((x, h'), w') → Got (fun q => ∃ r ∈ rs, Reaches h r q) h h'
  | 0, possible, h, h', x, w, w', e => by
    simp only [Objects.getAny, pm_pure_iff, Prod.mk.injEq] at e
    obtain ⟨⟨_, rfl⟩, _⟩ := e
    exact Got.refl _ h
  | fuel + 1, possible, h, h', x, w, w', e => by
    simp only [Objects.getAny] at e
    split at e
    · simp only [pm_pure_iff, Prod.mk.injEq] at e
      obtain ⟨⟨_, rfl⟩, _⟩ := e
      exact Got.refl _ h
    · obtain ⟨i, w1, e1, e⟩ := pm_bind.mp e
      cases hi : rs[i]? with
      | none => simp only [hi] at e; cases e
      | some r =>
        simp only [hi] at e
        obtain ⟨⟨p, h1⟩, w2, e2, e⟩ := pm_bind.mp e
        have hm := List.mem_of_getElem? hi
        have g1 := hget h r w1 p h1 w2 e2
        cases p with
        | some p =>
          simp only [pm_pure_iff, Prod.mk.injEq] at e
          obtain ⟨⟨_, rfl⟩, _⟩ := e
          exact g1.mono fun q hq => ⟨r, hm, hq⟩
        | none =>
          simp only at e
          have g2 := got_any hget rs fuel _ h1 h' x w2 w' e
          refine (g1.mono fun q hq => ⟨r, hm, hq⟩).trans (g2.mono ?_)
          rintro q ⟨r', hr', hq⟩
          exact ⟨r', hr', g1.reaches hq⟩

theorem got (d : Dict Int) : ∀ (n : Nat) (h : Objects E) (r : Nat) (w : World) (p : Option (HProver E)) (h' : Objects E)
    (w' : World), Objects.getProver d n h r w = .ok ((p, h'), w') → Got (Reaches h r) h h'
  | 0, h, r, w, p, h', w', e => by simp only [Objects.getProver] at e; cases e
  | n + 1, h, r, w, p, h', w', e => by
    simp only [Objects.getProver] at e
    cases ho : h.objs[r]? with
    | none => simp only [ho] at e; cases e
    | some o =>
      cases o with
      | rep lhs bases vars v b =>
        simp only [ho] at e
        cases hv : h.dicts[v]? with
        | none => simp only [hv] at e; cases e
        | some vals =>
          simp only [hv] at e
          rw [pm_getStore_bind] at e
          have key : Got (Reaches h r) h ⟨h.objs.set r (.rep lhs bases vars v true),
              h.dicts.set v (Dict.update w.store vals d), h.lists⟩ := by
            refine ⟨(grown_set _ ho).mono fun q _ hq => ⟨by rw [hq.1]; exact .self r, hq.2⟩, fun q o e hn => ?_, rfl, fun q l b e => ?_⟩
            · by_cases hr : r = q
              · subst hr
                rw [ho] at e
                injection e with e
                exact (hn _ _ _ _ _ e.symm).elim
              · simp [List.getElem?_set, hr, e]
            · by_cases hr : r = q
              · subst hr
                simp [(List.getElem?_eq_some_iff.mp ho).1] at e
              · simp [List.getElem?_set, hr]
          split at e
          · simp only [pm_pure_iff, Prod.mk.injEq] at e
            obtain ⟨⟨_, rfl⟩, _⟩ := e
            exact key
          · simp only [pm_pure_iff, Prod.mk.injEq] at e
            obtain ⟨⟨_, rfl⟩, _⟩ := e
            exact key
      | all l b =>
        simp only [ho] at e
        cases hl : h.lists[l]? with
        | none => simp only [hl] at e; cases e
        | some rs =>
          simp only [hl, pm_getStore_bind, pm_setStore_bind] at e
          split at e
          · simp only [pm_pure_iff, Prod.mk.injEq] at e
            obtain ⟨⟨_, rfl⟩, _⟩ := e
            exact Got.refl _ h
          · obtain ⟨⟨ps, h1⟩, w1, e1, e⟩ := pm_bind.mp e
            have g1 := got_all (got d n) rs h h1 ps _ w1 e1
            simp only at e
            cases hs : PTree.allSome ps with
            | none => simp only [hs] at e; cases e
            | some ps' =>
              simp only [hs, pm_pure_iff, Prod.mk.injEq] at e
              obtain ⟨⟨_, rfl⟩, _⟩ := e
              refine g1.mono ?_
              rintro q ⟨r', hr', hq⟩
              exact .all r l b rs r' q ho hl hr' hq
      | any l b =>
        simp only [ho] at e
        cases hl : h.lists[l]? with
        | none => simp only [hl] at e; cases e
        | some rs =>
          simp only [hl, pm_getStore_bind, pm_setStore_bind] at e
          split at e
          · simp only [pm_pure_iff, Prod.mk.injEq] at e
            obtain ⟨⟨_, rfl⟩, _⟩ := e
            exact Got.refl _ h
          · obtain ⟨⟨x, h1⟩, w1, e1, e⟩ := pm_bind.mp e
            have g1 := (got_any (got d n) rs _ _ h h1 x _ w1 e1).mono (R' := Reaches h r) (by
              rintro q ⟨r', hr', hq⟩
              exact .any r l b rs r' q ho hl hr' hq)
            cases x with
            | none =>
              simp only [pm_pure_iff, Prod.mk.injEq] at e
              obtain ⟨⟨_, rfl⟩, _⟩ := e
              exact g1
            | some x =>
              obtain ⟨i, p1⟩ := x
              simp only at e
              cases hs : PTree.allSome (rs.map (h1.read n)) with
              | none => simp only [hs] at e; cases e
              | some ts =>
                simp only [hs] at e
                obtain ⟨⟨_, sims⟩, w2, _, e⟩ := pm_bind.mp e
                simp only [pm_pure_iff, Prod.mk.injEq] at e
                obtain ⟨⟨_, rfl⟩, _⟩ := e
                exact g1

/-! ### Calls -/

theorem grown_setSimulated (h : Objects E) (r : Nat) (b : Bool) : Grown (fun q _ => q = r) h (h.setSimulated r b) := by
  refine ⟨fun _ _ e => e, fun _ vals e => ⟨vals, e⟩, fun q o e => ?_, by simp [Objects.setSimulated]⟩
  by_cases hr : r = q
  · subst hr
    exact .inr ⟨rfl, b, by simp [Objects.setSimulated, e]⟩
  · exact .inl (by simp [Objects.setSimulated, List.getElem?_modify, hr, e])

theorem getElem?_append_of {α : Type} {l m : List α} {i : Nat} {a : α} (h : l[i]? = some a) : (l ++ m)[i]? = some a := by
  rw [List.getElem?_append_left (List.getElem?_eq_some_iff.mp h).1, h]

theorem grown_append (R : Nat → Obj E → Prop) (h : Objects E) (os : List (Obj E)) (ds : List (Dict Int)) (ls : List (List Nat)) :
    Grown R h ⟨h.objs ++ os, h.dicts ++ ds, h.lists ++ ls⟩ :=
  ⟨fun _ _ e => getElem?_append_of e, fun _ vals e => ⟨vals, getElem?_append_of e⟩, fun _ _ e => .inl (getElem?_append_of e),
    by simp⟩

theorem grown_compose {mk : Nat → Bool → Obj E} {h h' : Objects E} {rs : List Nat} {r : Nat} (R : Nat → Obj E → Prop)
    (e : Objects.compose mk h rs = .ok (r, h')) : Grown R h h' := by
  unfold Objects.compose at e
  split at e
  · cases e
  · cases hc : h.copies rs with
    | error x => rw [hc] at e; cases e
    | ok os =>
      rw [hc] at e
      simp only [bind_ok, Except.ok.injEq, Prod.mk.injEq] at e
      obtain ⟨_, rfl⟩ := e
      have := grown_append R h (os ++ [mk h.lists.length false]) [] [List.range' h.objs.length os.length]
      simpa [List.append_assoc] using this

theorem grown_prover {h h' : Objects E} {r : Nat} {d : Dict Int} {w w' : World} {p : Option (HProver E)}
    (e : h.proverOf r d w = .ok ((p, h'), w')) : Got (Reaches h r) h h' := got d _ h r w p h' w' e

theorem prove_prover {env : Env E} {h h' : Objects E} {r : Nat} {d : Dict Int} {msg : String} {w w' : World} {π : NIZK E}
    (e : h.prove env r d msg w = .ok ((π, h'), w')) : ∃ p w1, h.proverOf r d w = .ok ((p, h'), w1) := by
  unfold Objects.prove at e
  obtain ⟨⟨p, h1⟩, w1, e1, e⟩ := pm_bind.mp e
  cases p with
  | none => simp only at e; cases e
  | some p =>
    simp only at e
    cases hs : p.see h1 with
    | none => simp only [hs] at e; cases e
    | some q =>
      simp only [hs] at e
      obtain ⟨⟨π', q'⟩, w2, _, e⟩ := pm_bind.mp e
      simp only [pm_pure_iff, Prod.mk.injEq] at e
      obtain ⟨⟨_, rfl⟩, _⟩ := e
      exact ⟨_, w1, e1⟩

theorem left_grown {R : Nat → Prop} {h h' : Objects E} (hl : Left R h h') : Grown (fun q o => R q ∧ isRep o) h h' := by
  refine ⟨fun l rs e => hl.lists ▸ e, fun v vals e => ?_, fun q o e => ?_, ?_⟩
  · rcases hl.dicts v with e1 | ⟨_, _, vals', _, e1⟩
    · exact ⟨vals, e1.trans e⟩
    · exact ⟨vals', e1⟩
  · rcases hl.objs q with e1 | ⟨hq, a1, a2, a3, a4, a5, e1, e2⟩
    · exact .inl (e1.trans e)
    · rw [e1] at e
      injection e with e
      subst e
      exact .inr ⟨⟨hq, trivial⟩, true, e2⟩
  · by_contra hn
    have hlt : h'.objs.length < h.objs.length := by omega
    rcases hl.objs h'.objs.length with e1 | ⟨_, a1, a2, a3, a4, a5, e1, e2⟩
    · rw [List.getElem?_eq_none (le_refl _), List.getElem?_eq_getElem hlt] at e1
      cases e1
    · rw [List.getElem?_eq_none (le_refl _)] at e2
      cases e2

theorem grown_call {h h' : Objects E} {rs ms : List Nat} (hc : Call h rs ms h') :
    Grown (fun q o => (∃ r ∈ rs, Reaches h r q) ∧ isRep o ∨ q ∈ ms) h h' := by
  cases hc with
  | getProver r d w w' p _ hr => exact (grown_prover hr).grown.mono fun q o hq => .inl ⟨⟨r, by simp, hq.1⟩, hq.2⟩
  | prove env r d msg w w' π _ hr =>
    obtain ⟨p, w1, e⟩ := prove_prover hr
    exact (grown_prover e).grown.mono fun q o hq => .inl ⟨⟨r, by simp, hq.1⟩, hq.2⟩
  | simulate env r c w w' a _ hr =>
    unfold Objects.simulate at hr
    cases ht : (h.setSimulated r true).tree r with
    | none => simp only [ht] at hr; cases hr
    | some t =>
      simp only [ht] at hr
      obtain ⟨⟨tr, id, _⟩, w1, _, hr⟩ := pm_bind.mp hr
      simp only [pm_pure_iff, Prod.mk.injEq] at hr
      obtain ⟨⟨_, rfl⟩, _⟩ := hr
      exact (grown_setSimulated h r true).mono fun q _ hq => .inr (by simp [hq])
  | getProverRaises r d w w' x _ hr =>
    have hl := left_prover r d (h, w)
    rw [hr] at hl
    exact (left_grown hl).mono fun q o hq => .inl ⟨⟨r, by simp, hq.1⟩, hq.2⟩
  | proveRaises env r d msg w w' x _ hr =>
    have hl := left_prove env r d msg (h, w)
    rw [hr] at hl
    exact (left_grown hl).mono fun q o hq => .inl ⟨⟨r, by simp, hq.1⟩, hq.2⟩
  | simulateRaises env r c w w' x _ hr =>
    have hl := simulate_leaves env r c (h, w)
    rw [hr] at hl
    simp only at hl
    subst hl
    exact (grown_setSimulated h r true).mono fun q _ hq => .inr (by simp [hq])
  | setSimulated r b => exact (grown_setSimulated h r b).mono fun q _ hq => .inr (by simp [hq])
  | rep σ lhs secrets bases b r _ hr =>
    unfold Objects.newRep at hr
    cases hm : mkDLRep σ lhs secrets bases b with
    | error x => rw [hm] at hr; cases hr
    | ok s =>
      rw [hm] at hr
      simp only [bind_ok, Except.ok.injEq, Prod.mk.injEq] at hr
      obtain ⟨_, rfl⟩ := hr
      have := grown_append (fun q o => (∃ r ∈ ([] : List Nat), Reaches h r q) ∧ isRep o ∨ q ∈ ([] : List Nat)) h
        [.rep s.lhs s.bases s.secretVars h.dicts.length s.simulated] [s.secretValues] []
      simpa using this
  | all rs r _ hr => exact grown_compose _ hr
  | any rs r _ hr => exact grown_compose _ hr
  | opAnd a b r _ hr => exact grown_compose _ hr
  | opOr a b r _ hr => exact grown_compose _ hr

theorem grown_calls {P Q : Objects E → Nat → Prop} {h h' : Objects E} (hc : Calls P Q h h') :
    Grown (fun _ _ => True) h h' := by
  induction hc with
  | none h => exact Grown.refl _ h
  | more h h1 h2 rs ms hc _ _ _ ih =>
    exact ((grown_call hc).mono fun _ _ _ => trivial).trans (fun _ _ _ => Iff.rfl) ih

/-- Calls on other objects leave a statement alone: all marks if provers are only made of other objects, the marks
of compositions in any case. -/
theorem apart_calls {M : Prop} {h h' : Objects E} {r : Nat}
    (hc : Calls (fun h q => M ∨ NoCommonPart h q r) (fun h m => ¬ Reaches h r m) h h') {t : Core E}
    (ht : h.tree r = some t) : ∃ t', h'.tree r = some t' ∧ Alike M False t t' := by
  have key : ∀ {h h' : Objects E}, Calls (fun h q => M ∨ NoCommonPart h q r) (fun h m => ¬ Reaches h r m) h h' →
      ∀ t, h.tree r = some t → Grown (fun q o => Reaches h r q → M ∧ isRep o) h h' := by
    intro h h' hc
    induction hc with
    | none h => intro t _; exact Grown.refl _ h
    | more h h1 h2 rs ms hc hP hQ _ ih =>
      intro t ht
      have g1 := grown_call hc
      obtain ⟨t1, ht1, _⟩ := tree_grown (M := True) (N := True) g1 ht fun _ _ _ _ _ => ⟨fun _ => trivial, fun _ => trivial⟩
      refine (g1.mono ?_).trans (fun q o b => by rw [isRep_setSimulated]) ((ih t1 ht1).mono ?_)
      · rintro q o (⟨⟨r', hr', hq⟩, ho⟩ | hm) hrq
        · rcases hP r' hr' with hM | hn
          · exact ⟨hM, ho⟩
          · exact (hn q hq hrq).elim
        · exact (hQ q hm hrq).elim
      · intro q o hq hr
        exact hq (reaches_grown g1 hr)
  refine tree_grown (key hc t ht) ht fun q o h1 _ h2 => ⟨fun _ => (h2 h1).1, fun hn => hn (h2 h1).2⟩

/-! ### Statements stay satisfied -/

theorem alike_unmarked {M N : Prop} (hM : ¬ M) (hN : ¬ N) {t t' : Core E} (h : Alike M N t t') : unmarked t' ↔ unmarked t := by
  cases h with
  | leaf s s' hn hm => simp only [unmarked, hm.resolve_right hM]
  | and b b' ts ts' hb hl h => simp only [unmarked, hb.resolve_right hN]
  | or b b' ts ts' hb hl h => simp only [unmarked, hb.resolve_right hN]

theorem satisfied_alike {σ : Store} {d : Dict Int} {X : Key → Int} {M : Prop} {t t' : Core E} (h : Alike M False t t') :
    (M → OrFree t) → Satisfied σ d X t → Supplied σ d t → Satisfied σ d X t' := by
  induction h with
  | leaf s s' hn hm =>
    intro _ hs hsup
    cases hs with
    | rep _ hv hh =>
    cases hsup with
    | rep _ hsup =>
    have h1 : s'.bases = s.bases := by have := congrArg DLRep.bases hn; exact this
    have h2 : s'.secretVars = s.secretVars := by have := congrArg DLRep.secretVars hn; exact this
    have h3 : s'.lhs = s.lhs := by have := congrArg DLRep.lhs hn; exact this
    refine .rep _ (fun x hx => ?_) ?_
    · rw [h2] at hx
      have e1 := hv x hx
      obtain ⟨v, e2⟩ := Option.isSome_iff_exists.mp (hsup x hx)
      unfold given at e1 ⊢
      rw [e2] at e1 ⊢
      exact e1
    · cases hh with
      | rep _ _ i1 i2 =>
        refine .rep _ _ ?_ ?_
        · rw [h1, h3]; exact i1
        · rw [h1, h2, h3]; exact i2
  | and b b' ts ts' hb hl h ih =>
    intro hM hs hsup
    cases hs with
    | all _ hs =>
    cases hsup with
    | all _ _ hsup =>
    have hb' : b' = false := hb.resolve_right id
    subst hb'
    refine .all _ fun t' ht' => ?_
    obtain ⟨i, hi⟩ := List.mem_iff_getElem?.mp ht'
    have hil : i < ts.length := by rw [← hl]; exact (List.getElem?_eq_some_iff.mp hi).1
    have hti := List.getElem?_eq_getElem hil
    have hm := List.mem_of_getElem? hti
    refine ih i _ _ hti hi (fun hM' => ?_) (hs _ hm) (hsup _ hm)
    cases hM hM' with
    | all _ _ h => exact h _ hm
  | or b b' ts ts' hb hl h ih =>
    intro hM hs hsup
    have hM' : ¬ M := fun hM' => by cases hM hM'
    cases hs with
    | any _ hex hs =>
    cases hsup with
    | any _ _ hsup =>
    have hb' : b' = false := hb.resolve_right id
    subst hb'
    refine .any _ ?_ fun t' ht' hu => ?_
    · obtain ⟨t, ht, hu⟩ := hex
      obtain ⟨i, hi⟩ := List.mem_iff_getElem?.mp ht
      have hil : i < ts'.length := by rw [hl]; exact (List.getElem?_eq_some_iff.mp hi).1
      have hti := List.getElem?_eq_getElem hil
      exact ⟨_, List.mem_of_getElem? hti, (alike_unmarked hM' id (h i _ _ hi hti)).mpr hu⟩
    · obtain ⟨i, hi⟩ := List.mem_iff_getElem?.mp ht'
      have hil : i < ts.length := by rw [← hl]; exact (List.getElem?_eq_some_iff.mp hi).1
      have hti := List.getElem?_eq_getElem hil
      have hm := List.mem_of_getElem? hti
      have hu' := (alike_unmarked hM' id (h i _ _ hti hi)).mp hu
      exact ih i _ _ hti hi (fun hM'' => (hM' hM'').elim) (hs _ hm hu') (hsup _ hm hu')

theorem heapFor_blank {t t' : Core E} (h : Tree.blank t' = Tree.blank t) (σ : Store) (d : Dict Int) :
    heapFor σ d t' = heapFor σ d t := by
  cases t with
  | leaf s => obtain ⟨s', rfl, _⟩ := Tree.blank_leaf_inv h; rfl
  | and b ts => obtain ⟨b', ts', rfl, _⟩ := Tree.blank_and_inv h; rfl
  | or b ts => obtain ⟨b', ts', rfl, _⟩ := Tree.blank_or_inv h; rfl

/-! ### Proving -/

/-- `get_prover` on a satisfied statement object. -/
theorem prover_satisfied {h : Objects E} {r : Nat} {t : Core E} {d : Dict Int} {w : World} {X : Key → Int}
    (hr : h.tree r = some t) (hs : Solid t) (ht : Torsion t) (hd : d.Uniq (heapFor w.store d t))
    (hX : Satisfied (heapFor w.store d t) d X t) (hc : Composable (heapFor w.store d t) t) :
    ∃ hp h' w', h.proverOf r d w = .ok ((some hp, h'), w') ∧ w'.store = heapFor w.store d t ∧
      Fit (heapFor w.store d t) d X h' hp t := by
  obtain ⟨n, hn⟩ : ∃ n, h.objs.length = n + 1 := by
    cases hl : h.objs.length with
    | zero => rw [Objects.tree, hl] at hr; simp [Objects.read] at hr
    | succ n => exact ⟨n, rfl⟩
  have hr' := hr
  unfold Objects.tree at hr'
  rw [hn] at hr'
  unfold Objects.proverOf
  by_cases hleaf : ∃ s, t = .leaf s
  · obtain ⟨s, rfl⟩ := hleaf
    rw [hn]
    simp only [Objects.read] at hr'
    cases ho : h.objs[r]? with
    | none => simp [ho] at hr'
    | some o =>
      cases o with
      | rep lhs bases vars v b =>
        simp only [ho, Option.map_eq_some_iff] at hr'
        obtain ⟨vals, hv, e⟩ := hr'
        injection e with e
        subst e
        obtain ⟨hp, h', w', e1, e2, _, _, e5⟩ := makes_rep (n := n) hd ho hv hs ht hX w rfl
        exact ⟨hp, h', w', e1, e2, e5⟩
      | all l b =>
        simp only [ho] at hr'
        cases hl : h.lists[l]? with
        | none => simp [hl] at hr'
        | some rs => simp [hl] at hr'
      | any l b =>
        simp only [ho] at hr'
        cases hl : h.lists[l]? with
        | none => simp [hl] at hr'
        | some rs => simp [hl] at hr'
  · have hnl : ∀ s, t ≠ .leaf s := fun s e => hleaf ⟨s, e⟩
    rw [heapFor_eq _ _ hnl] at hd hX hc ⊢
    obtain ⟨hp, h', w', e1, e2, _, _, e5⟩ := makes (updateSecretValues_idem w.store d) hd _ h r t (le_refl _) hr hs ht hc hX
      { w with store := updateSecretValues w.store d } rfl
    refine ⟨hp, h', w', ?_, e2, e5⟩
    rw [← e1, hn]
    simp only [Objects.read] at hr'
    cases ho : h.objs[r]? with
    | none => simp [ho] at hr'
    | some o =>
      cases o with
      | rep lhs bases vars v b =>
        simp only [ho, Option.map_eq_some_iff] at hr'
        obtain ⟨vals, _, e⟩ := hr'
        exact (hnl _ e.symm).elim
      | all l b =>
        cases hl : h.lists[l]? with
        | none => simp [ho, hl] at hr'
        | some rs => simp only [Objects.getProver, ho, hl, pm_getStore_bind, pm_setStore_bind, updateSecretValues_idem]
      | any l b =>
        cases hl : h.lists[l]? with
        | none => simp [ho, hl] at hr'
        | some rs => simp only [Objects.getProver, ho, hl, pm_getStore_bind, pm_setStore_bind, updateSecretValues_idem]

theorem prove_satisfied (env : Env E) {h : Objects E} {r : Nat} {t : Core E} {d : Dict Int} {w : World} {X : Key → Int}
    (msg : String) (hr : h.tree r = some t) (hs : Solid t) (ht : Torsion t) (hd : d.Uniq (heapFor w.store d t))
    (hX : Satisfied (heapFor w.store d t) d X t) (hc : Composable (heapFor w.store d t) t) :
    ∃ π h' w', h.prove env r d msg w = .ok ((π, h'), w') ∧ w'.store = heapFor w.store d t ∧
      Zksk.verify env w'.store t π msg = .ok true := by
  obtain ⟨hp, h', w1, e1, e2, e3⟩ := prover_satisfied hr hs ht hd hX hc
  obtain ⟨p, f1, f2, f3, f4⟩ := e3 h' (Frame.refl _ h') (Filled.refl _ _ h')
  rw [← e2] at hc f2 f3
  obtain ⟨⟨π, p', w2, g1, g2, g3, _⟩, _⟩ := run_primed (w1 := w1) hs hc f2 f3 f4 env msg
  refine ⟨π, h', w2, ?_, g3.trans e2, by rw [g3]; exact g2⟩
  unfold Objects.prove
  rw [pm_bind_eq e1]
  simp only [f1]
  rw [pm_bind_eq g1]
  rfl

/-! ### Constructors -/

theorem copies_ok {h : Objects E} : ∀ {rs : List Nat} {ts : List (Core E)}, rs.map h.tree = ts.map some →
    ∃ os, h.copies rs = .ok os ∧ os.length = rs.length ∧
      ∀ (i r : Nat), rs[i]? = some r → ∃ o, os[i]? = some o ∧ h.objs[r]? = some o
  | [], ts, _ => ⟨[], rfl, rfl, by simp⟩
  | r :: rs, [], hts => by simp at hts
  | r :: rs, t :: ts, hts => by
    simp only [List.map_cons, List.cons.injEq] at hts
    obtain ⟨os, h1, h2, h3⟩ := copies_ok hts.2
    have := read_simulated hts.1
    cases ho : h.objs[r]? with
    | none => rw [ho] at this; simp at this
    | some o =>
      refine ⟨o :: os, by simp [Objects.copies, ho, h1, bind_ok], by simp [h2], fun i r' hi => ?_⟩
      cases i with
      | zero => simp only [List.getElem?_cons_zero, Option.some.injEq] at hi; exact ⟨o, rfl, hi ▸ ho⟩
      | succ i =>
        simp only [List.getElem?_cons_succ] at hi ⊢
        exact h3 i r' hi

/-- Objects with the same attributes read the same. -/
theorem read_same {h : Objects E} {n r r' : Nat} (e : h.objs[r']? = h.objs[r]?) : h.read n r' = h.read n r := by
  cases n with
  | zero => rfl
  | succ n => simp only [Objects.read, e]

/-- More objects do not change a reading. -/
theorem read_append {h : Objects E} (os : List (Obj E)) (ds : List (Dict Int)) (ls : List (List Nat)) :
    ∀ (n r : Nat) (t : Core E), h.read n r = some t →
      Objects.read ⟨h.objs ++ os, h.dicts ++ ds, h.lists ++ ls⟩ n r = some t
  | 0, _, _, hr => by simp [Objects.read] at hr
  | n + 1, r, t, hr => by
    have hrec : ∀ (rs : List Nat) (ts : List (Core E)), PTree.allSome (rs.map (h.read n)) = some ts →
        PTree.allSome (rs.map (Objects.read ⟨h.objs ++ os, h.dicts ++ ds, h.lists ++ ls⟩ n)) = some ts := by
      intro rs ts hts
      rw [allSome_iff]
      refine List.ext_getElem? fun i => ?_
      simp only [List.getElem?_map]
      cases hi : rs[i]? with
      | none =>
        have := reads_length hts
        rw [List.getElem?_eq_none (by rw [this]; exact List.getElem?_eq_none_iff.mp hi)]
        rfl
      | some r =>
        obtain ⟨t, h1, h2⟩ := reads_get hts hi
        simp [h1, read_append os ds ls n r t h2]
    simp only [Objects.read] at hr ⊢
    cases ho : h.objs[r]? with
    | none => simp [ho] at hr
    | some o =>
      rw [getElem?_append_of ho]
      cases o with
      | rep lhs bases vars v b =>
        simp only [ho, Option.map_eq_some_iff] at hr
        obtain ⟨vals, hv, rfl⟩ := hr
        simp only [getElem?_append_of hv, Option.map_some]
      | all l b =>
        simp only [ho] at hr
        cases hl : h.lists[l]? with
        | none => simp [hl] at hr
        | some rs =>
          simp only [hl, Option.bind_some, Option.map_eq_some_iff] at hr
          obtain ⟨ts, hts, rfl⟩ := hr
          simp only [getElem?_append_of hl, Option.bind_some, hrec rs ts hts, Option.map_some]
      | any l b =>
        simp only [ho] at hr
        cases hl : h.lists[l]? with
        | none => simp [hl] at hr
        | some rs =>
          simp only [hl, Option.bind_some, Option.map_eq_some_iff] at hr
          obtain ⟨ts, hts, rfl⟩ := hr
          simp only [getElem?_append_of hl, Option.bind_some, hrec rs ts hts, Option.map_some]

/-- Composing objects. -/
theorem compose_reads {mk : Nat → Bool → Obj E} {h : Objects E} {rs : List Nat} {ts : List (Core E)}
    (hts : rs.map h.tree = ts.map some) :
    (rs.length < 2 ∧ Objects.compose mk h rs = .error .valueError) ∨
    (2 ≤ rs.length ∧ ∃ h' l, Objects.compose mk h rs = .ok (h.objs.length + rs.length, h') ∧
      h'.objs[h.objs.length + rs.length]? = some (mk l false) ∧
      h'.lists[l]? = some (List.range' h.objs.length rs.length) ∧
      h'.objs.length = h.objs.length + rs.length + 1 ∧
      PTree.allSome ((List.range' h.objs.length rs.length).map (h'.read (h.objs.length + rs.length))) = some ts ∧
      (∀ (i r : Nat), rs[i]? = some r → h'.objs[h.objs.length + i]? = h.objs[r]?) ∧
      ∀ q t, h.tree q = some t → h'.tree q = some t) := by
  unfold Objects.compose
  by_cases hlt : rs.length < 2
  · exact .inl ⟨hlt, by rw [if_pos hlt]⟩
  · refine .inr ⟨by omega, ?_⟩
    rw [if_neg hlt]
    obtain ⟨os, h1, h2, h3⟩ := copies_ok hts
    rw [h1]
    simp only [bind_ok, h2]
    have heq : (⟨h.objs ++ os ++ [mk h.lists.length false], h.dicts, h.lists ++ [List.range' h.objs.length rs.length]⟩ : Objects E) =
        ⟨h.objs ++ (os ++ [mk h.lists.length false]), h.dicts ++ [], h.lists ++ [List.range' h.objs.length rs.length]⟩ := by
      simp
    have hold : ∀ n q t, h.read n q = some t → Objects.read ⟨h.objs ++ os ++ [mk h.lists.length false], h.dicts,
        h.lists ++ [List.range' h.objs.length rs.length]⟩ n q = some t := by
      intro n q t hq
      rw [heq]
      exact read_append _ _ _ n q t hq
    have hnew : ∀ (i r : Nat), rs[i]? = some r →
        (h.objs ++ os ++ [mk h.lists.length false])[h.objs.length + i]? = h.objs[r]? := by
      intro i r hi
      obtain ⟨o, e1, e2⟩ := h3 i r hi
      rw [List.append_assoc, List.getElem?_append_right (by omega), e2]
      simp only [Nat.add_sub_cancel_left]
      exact getElem?_append_of e1
    refine ⟨_, h.lists.length, rfl, ?_, ?_, by simp [h2, Nat.add_assoc], ?_, hnew, ?_⟩
    · simp only
      rw [List.getElem?_append_right (by simp [h2])]
      simp [h2]
    · simp
    · obtain ⟨ts', e1, e2, e3⟩ := reads_of (f := Objects.read ⟨h.objs ++ os ++ [mk h.lists.length false], h.dicts,
          h.lists ++ [List.range' h.objs.length rs.length]⟩ (h.objs.length + rs.length))
        (rs := List.range' h.objs.length rs.length) (Q := fun i t' => ∀ t, ts[i]? = some t → t' = t) (by
          intro i r' hi
          obtain ⟨hil, hig⟩ := List.getElem?_eq_some_iff.mp hi
          simp only [List.length_range'] at hil
          simp only [List.getElem_range', Nat.one_mul] at hig
          subst hig
          have hri := List.getElem?_eq_getElem hil
          have htl : ts.length = rs.length := by simpa using (congrArg List.length hts).symm
          have hti := List.getElem?_eq_getElem (show i < ts.length by omega)
          have hread : h.tree rs[i] = some ts[i] := by
            have := congrArg (·[i]?) hts
            simpa [hri, hti] using this
          have hobj := hnew i _ hri
          have hrl : rs[i] < h.objs.length := by
            have := read_simulated hread
            by_contra hge
            rw [List.getElem?_eq_none (by omega)] at this
            simp at this
          refine ⟨ts[i], ?_, fun t ht => by rw [hti] at ht; exact Option.some.inj ht⟩
          rw [read_same (r := rs[i]) (by
            simp only
            rw [hobj, List.append_assoc, List.getElem?_append_left hrl])]
          exact hold _ _ _ (read_mono h _ _ _ _ (by omega) hread))
      rw [e1]
      congr 1
      refine List.ext_getElem? fun i => ?_
      have htl : ts.length = rs.length := by simpa using (congrArg List.length hts).symm
      simp only [List.length_range'] at e2
      cases hi : ts'[i]? with
      | none =>
        rw [List.getElem?_eq_none_iff] at hi
        rw [List.getElem?_eq_none (by omega)]
      | some t' =>
        have : i < ts.length := by have := (List.getElem?_eq_some_iff.mp hi).1; omega
        rw [List.getElem?_eq_getElem this, e3 i t' hi _ (List.getElem?_eq_getElem this)]
    · intro q t hq
      exact read_mono _ _ _ _ _ (by simp) (hold _ q t hq)

theorem newAll_reads {h : Objects E} {rs : List Nat} {ts : List (Core E)} (hts : rs.map h.tree = ts.map some) :
    (h.newAll rs).map (fun x => x.2.tree x.1) = (mkAnd ts).map some ∧
      ∀ r h', h.newAll rs = .ok (r, h') → ∀ q t, h.tree q = some t → h'.tree q = some t := by
  have hl : ts.length = rs.length := by simpa using (congrArg List.length hts).symm
  unfold Objects.newAll mkAnd
  rcases compose_reads (mk := .all) hts with ⟨h1, h2⟩ | ⟨h1, h', l, h2, h3, h4, h5, h6, _, h7⟩
  · rw [h2, if_pos (by omega)]
    exact ⟨rfl, fun r h' e => by cases e⟩
  · rw [h2, if_neg (by omega)]
    refine ⟨?_, fun r h'' e => ?_⟩
    · simp only [Except.map, Objects.tree, h5, Objects.read, h3, h4, Option.bind_some, h6, Option.map_some]
    · injection e with e
      obtain ⟨_, rfl⟩ := Prod.mk.injEq .. ▸ e
      exact h7

theorem newAny_reads {h : Objects E} {rs : List Nat} {ts : List (Core E)} (hts : rs.map h.tree = ts.map some) :
    (h.newAny rs).map (fun x => x.2.tree x.1) = (mkOr ts).map some ∧
      ∀ r h', h.newAny rs = .ok (r, h') → ∀ q t, h.tree q = some t → h'.tree q = some t := by
  have hl : ts.length = rs.length := by simpa using (congrArg List.length hts).symm
  unfold Objects.newAny mkOr
  rcases compose_reads (mk := .any) hts with ⟨h1, h2⟩ | ⟨h1, h', l, h2, h3, h4, h5, h6, _, h7⟩
  · rw [h2, if_pos (by omega)]
    exact ⟨rfl, fun r h' e => by cases e⟩
  · rw [h2, if_neg (by omega)]
    refine ⟨?_, fun r h'' e => ?_⟩
    · simp only [Except.map, Objects.tree, h5, Objects.read, h3, h4, Option.bind_some, h6, Option.map_some]
    · injection e with e
      obtain ⟨_, rfl⟩ := Prod.mk.injEq .. ▸ e
      exact h7

/-- The parts of a conjunction. -/
def andList : Core E → List (Core E)
  | .and _ ts => ts
  | t => [t]

/-- The parts of a disjunction. -/
def orList : Core E → List (Core E)
  | .or _ ts => ts
  | t => [t]

/-- The parts that the operators combine. -/
theorem andParts_reads {h : Objects E} {r : Nat} {t : Core E} (hr : h.tree r = some t) :
    (h.andParts r).map h.tree = (andList t).map some := by
  have hr' := hr
  unfold Objects.tree at hr'
  obtain ⟨n, hn⟩ : ∃ n, h.objs.length = n + 1 := by
    cases hl : h.objs.length with
    | zero => rw [hl] at hr'; simp [Objects.read] at hr'
    | succ n => exact ⟨n, rfl⟩
  rw [hn] at hr'
  simp only [Objects.read] at hr'
  unfold Objects.andParts
  cases ho : h.objs[r]? with
  | none => simp [ho] at hr'
  | some o =>
    cases o with
    | rep lhs bases vars v b =>
      simp only [ho, Option.map_eq_some_iff] at hr'
      obtain ⟨vals, hv, rfl⟩ := hr'
      simp [hr, andList]
    | all l b =>
      simp only [ho] at hr'
      cases hl : h.lists[l]? with
      | none => simp [hl] at hr'
      | some rs =>
        simp only [hl, Option.bind_some, Option.map_eq_some_iff] at hr'
        obtain ⟨ts, hts, rfl⟩ := hr'
        simp only [hl, Option.getD_some, andList]
        refine List.ext_getElem? fun i => ?_
        simp only [List.getElem?_map]
        cases hi : rs[i]? with
        | none =>
          rw [List.getElem?_eq_none (by rw [reads_length hts]; exact List.getElem?_eq_none_iff.mp hi)]
          rfl
        | some r =>
          obtain ⟨t, e1, e2⟩ := reads_get hts hi
          simp [e1, Objects.tree, read_mono h n h.objs.length r t (by omega) e2]
    | any l b =>
      simp only [ho] at hr'
      cases hl : h.lists[l]? with
      | none => simp [hl] at hr'
      | some rs =>
        simp only [hl, Option.bind_some, Option.map_eq_some_iff] at hr'
        obtain ⟨ts, hts, rfl⟩ := hr'
        simp [hr, andList]

theorem orParts_reads {h : Objects E} {r : Nat} {t : Core E} (hr : h.tree r = some t) :
    (h.orParts r).map h.tree = (orList t).map some := by
  have hr' := hr
  unfold Objects.tree at hr'
  obtain ⟨n, hn⟩ : ∃ n, h.objs.length = n + 1 := by
    cases hl : h.objs.length with
    | zero => rw [hl] at hr'; simp [Objects.read] at hr'
    | succ n => exact ⟨n, rfl⟩
  rw [hn] at hr'
  simp only [Objects.read] at hr'
  unfold Objects.orParts
  cases ho : h.objs[r]? with
  | none => simp [ho] at hr'
  | some o =>
    cases o with
    | rep lhs bases vars v b =>
      simp only [ho, Option.map_eq_some_iff] at hr'
      obtain ⟨vals, hv, rfl⟩ := hr'
      simp [hr, orList]
    | any l b =>
      simp only [ho] at hr'
      cases hl : h.lists[l]? with
      | none => simp [hl] at hr'
      | some rs =>
        simp only [hl, Option.bind_some, Option.map_eq_some_iff] at hr'
        obtain ⟨ts, hts, rfl⟩ := hr'
        simp only [hl, Option.getD_some, orList]
        refine List.ext_getElem? fun i => ?_
        simp only [List.getElem?_map]
        cases hi : rs[i]? with
        | none =>
          rw [List.getElem?_eq_none (by rw [reads_length hts]; exact List.getElem?_eq_none_iff.mp hi)]
          rfl
        | some r =>
          obtain ⟨t, e1, e2⟩ := reads_get hts hi
          simp [e1, Objects.tree, read_mono h n h.objs.length r t (by omega) e2]
    | all l b =>
      simp only [ho] at hr'
      cases hl : h.lists[l]? with
      | none => simp [hl] at hr'
      | some rs =>
        simp only [hl, Option.bind_some, Option.map_eq_some_iff] at hr'
        obtain ⟨ts, hts, rfl⟩ := hr'
        simp [hr, orList]

theorem opAnd_reads {h : Objects E} {a b : Nat} {s t : Core E} (ha : h.tree a = some s) (hb : h.tree b = some t) :
    (h.opAnd a b).map (fun x => x.2.tree x.1) = (Zksk.opAnd s t).map some := by
  have h1 := andParts_reads ha
  have h2 := andParts_reads hb
  unfold Objects.opAnd
  have := (newAll_reads (h := h) (rs := h.andParts a ++ h.andParts b)
    (ts := andList s ++ andList t)
    (by rw [List.map_append, h1, h2, List.map_append])).1
  rw [this]
  cases s <;> cases t <;> rfl

theorem opOr_reads {h : Objects E} {a b : Nat} {s t : Core E} (ha : h.tree a = some s) (hb : h.tree b = some t) :
    (h.opOr a b).map (fun x => x.2.tree x.1) = (Zksk.opOr s t).map some := by
  have h1 := orParts_reads ha
  have h2 := orParts_reads hb
  unfold Objects.opOr
  have := (newAny_reads (h := h) (rs := h.orParts a ++ h.orParts b)
    (ts := orList s ++ orList t)
    (by rw [List.map_append, h1, h2, List.map_append])).1
  rw [this]
  cases s <;> cases t <;> rfl

end Zksk.Share
