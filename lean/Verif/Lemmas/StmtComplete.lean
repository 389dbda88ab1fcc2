import Verif.Lemmas.ExtRun

/-! Statements with extended parts: honest runs succeed and are accepted. -/

set_option linter.unusedSectionVars false

namespace Zksk

open Spec

variable {E : Type} [AddCommGroup E] [DecidableEq E]

/-! ### Dependence on the public part only -/

theorem blankL_get? {ts us : List (Stmt E)} (h : Tree.blankL ts = Tree.blankL us) {i : Nat} {t : Stmt E}
    (ht : ts[i]? = some t) : ∃ u, us[i]? = some u ∧ Tree.blank u = Tree.blank t := by
  rw [Tree.blankL_eq, Tree.blankL_eq] at h
  have h1 : (ts.map Tree.blank)[i]? = some (Tree.blank t) := by rw [List.getElem?_map, ht]; rfl
  rw [h, List.getElem?_map, Option.map_eq_some_iff] at h1
  exact h1

theorem atLeaf_blank {Q : Leaf E → Sec → Prop}
    (hQ : ∀ l l' : Leaf E, Blank.blank l' = Blank.blank l → ∀ x, Q l x → Q l' x) {t : Stmt E} {x : Sec}
    (h : AtLeaf Q t x) : ∀ t', Tree.blank t' = Tree.blank t → AtLeaf Q t' x := by
  induction h with
  | leaf l x h =>
    intro t' hb
    obtain ⟨l', rfl, hl⟩ := Tree.blank_leaf_inv hb
    exact .leaf l' x (hQ l l' hl x h)
  | all b subs t x ht _ ih =>
    intro t' hb
    obtain ⟨s', us, rfl, hl⟩ := Tree.blank_and_inv hb
    obtain ⟨i, hi⟩ := List.getElem?_of_mem ht
    obtain ⟨u, hu, e⟩ := blankL_get? hl.symm hi
    exact .all s' us u x (List.mem_of_getElem? hu) (ih u e)
  | any b subs t x ht _ ih =>
    intro t' hb
    obtain ⟨s', us, rfl, hl⟩ := Tree.blank_or_inv hb
    obtain ⟨i, hi⟩ := List.getElem?_of_mem ht
    obtain ⟨u, hu, e⟩ := blankL_get? hl.symm hi
    exact .any s' us u x (List.mem_of_getElem? hu) (ih u e)

section
variable (F : Profile E)

theorem leafWrites_blank (l l' : Leaf E) (h : Blank.blank l' = Blank.blank l) (x : Sec)
    (hx : leafWrites F l x) : leafWrites F l' x := by
  cases l <;> cases l' <;> simp only [Blank.blank, Leaf.dlrep.injEq, Leaf.ext.injEq, reduceCtorEq,
    leafWrites] at h hx ⊢
  simp only [Ext.mk.injEq, and_true] at h
  rw [h]; exact hx

theorem leafOccurs_blank (l l' : Leaf E) (h : Blank.blank l' = Blank.blank l) (x : Sec)
    (hx : leafOccurs F l x) : leafOccurs F l' x := by
  cases l <;> cases l' <;> simp only [Blank.blank, Leaf.dlrep.injEq, Leaf.ext.injEq, reduceCtorEq,
    leafOccurs] at h hx ⊢
  · have := congrArg DLRep.secretVars h
    simp only [DLRep.norm] at this
    rw [this]; exact hx
  · simp only [Ext.mk.injEq, and_true] at h
    rw [h]; exact hx

theorem separate_blank {t : Stmt E} (h : Separate F t) : ∀ t', Tree.blank t' = Tree.blank t → Separate F t' := by
  induction h with
  | leaf l =>
    intro t' hb
    obtain ⟨l', rfl, hl⟩ := Tree.blank_leaf_inv hb
    exact .leaf l'
  | all b subs h hd ih =>
    intro t' hb
    obtain ⟨s', us, rfl, hl⟩ := Tree.blank_and_inv hb
    refine .all s' us (fun u hu => ?_) fun i j u v x hij hu hv h1 h2 => ?_
    · obtain ⟨i, hi⟩ := List.getElem?_of_mem hu
      obtain ⟨t, ht, e⟩ := blankL_get? hl hi
      exact ih t (List.mem_of_getElem? ht) u e.symm
    · obtain ⟨t, ht, e⟩ := blankL_get? hl hu
      obtain ⟨t2, ht2, e2⟩ := blankL_get? hl hv
      exact hd i j t t2 x hij ht ht2 (atLeaf_blank (leafWrites_blank F) h1 t e)
        (atLeaf_blank (leafWrites_blank F) h2 t2 e2)
  | any b subs h hd ih =>
    intro t' hb
    obtain ⟨s', us, rfl, hl⟩ := Tree.blank_or_inv hb
    refine .any s' us (fun u hu => ?_) fun i j u v x hij hu hv h1 h2 => ?_
    · obtain ⟨i, hi⟩ := List.getElem?_of_mem hu
      obtain ⟨t, ht, e⟩ := blankL_get? hl hi
      exact ih t (List.mem_of_getElem? ht) u e.symm
    · obtain ⟨t, ht, e⟩ := blankL_get? hl hu
      obtain ⟨t2, ht2, e2⟩ := blankL_get? hl hv
      exact hd i j t t2 x hij ht ht2 (atLeaf_blank (leafWrites_blank F) h1 t e)
        (atLeaf_blank (leafWrites_blank F) h2 t2 e2)

theorem blankL_split_stmt : ∀ (ls : List (Stmt E)) {t : Stmt E} {rs us : List (Stmt E)},
    Tree.blankL us = Tree.blankL (ls ++ t :: rs) → ∃ ls' t' rs', us = ls' ++ t' :: rs' ∧
      Tree.blankL ls' = Tree.blankL ls ∧ Tree.blank t' = Tree.blank t ∧ Tree.blankL rs' = Tree.blankL rs
  | [], t, rs, us, h => by
    cases us with
    | nil => simp [Tree.blankL] at h
    | cons u us =>
      simp only [List.nil_append, Tree.blankL, List.cons.injEq] at h
      exact ⟨[], u, us, rfl, rfl, h.1, h.2⟩
  | l :: ls, t, rs, us, h => by
    cases us with
    | nil => simp [Tree.blankL] at h
    | cons u us =>
      simp only [List.cons_append, Tree.blankL, List.cons.injEq] at h
      obtain ⟨ls', t', rs', rfl, h1, h2, h3⟩ := blankL_split_stmt ls h.2
      exact ⟨u :: ls', t', rs', rfl, by simp only [Tree.blankL, h.1, h1], h2, h3⟩

theorem blankL_append (as bs : List (Stmt E)) : Tree.blankL (as ++ bs) = Tree.blankL as ++ Tree.blankL bs := by
  simp only [Tree.blankL_eq, List.map_append]

theorem orIn_blank {t u : Stmt E} {rest : List (Stmt E)} (h : OrIn t u rest) :
    ∀ t', Tree.blank t' = Tree.blank t → ∃ u' rest', OrIn t' u' rest' ∧ Tree.blank u' = Tree.blank u ∧
      Tree.blankL rest' = Tree.blankL rest := by
  induction h with
  | here b subs =>
    intro t' hb
    obtain ⟨s', us, rfl, hl⟩ := Tree.blank_or_inv hb
    exact ⟨_, [], .here s' us, hb, rfl⟩
  | down b ls t rs u rest h ih =>
    intro t' hb
    obtain ⟨s', us, rfl, hl⟩ := Tree.blank_and_inv hb
    obtain ⟨ls', t2, rs', rfl, h1, h2, h3⟩ := blankL_split_stmt ls hl
    obtain ⟨u', rest', g1, g2, g3⟩ := ih t2 h2
    exact ⟨u', _, .down s' ls' t2 rs' u' rest' g1, g2, by simp only [blankL_append, h1, h3, g3]⟩

theorem tidy_blank {name : Sec → String} {t : Stmt E} (h : Tidy F name t) :
    ∀ t', Tree.blank t' = Tree.blank t → Tidy F name t' := by
  induction h with
  | leaf l =>
    intro t' hb
    obtain ⟨l', rfl, hl⟩ := Tree.blank_leaf_inv hb
    exact .leaf l'
  | all b subs h hp ih =>
    intro t' hb
    obtain ⟨s', us, rfl, hl⟩ := Tree.blank_and_inv hb
    refine .all s' us (fun u hu => ?_) fun u rest hu x hx v hv y hy => ?_
    · obtain ⟨i, hi⟩ := List.getElem?_of_mem hu
      obtain ⟨t, ht, e⟩ := blankL_get? hl hi
      exact ih t (List.mem_of_getElem? ht) u e.symm
    · obtain ⟨u', rest', g1, g2, g3⟩ := orIn_blank hu _ hb.symm
      obtain ⟨i, hi⟩ := List.getElem?_of_mem hv
      obtain ⟨v', hv', e⟩ := blankL_get? g3.symm hi
      exact hp u' rest' g1 x (atLeaf_blank (leafOccurs_blank F) hx u' g2) v' (List.mem_of_getElem? hv') y
        (atLeaf_blank (leafOccurs_blank F) hy v' e)
  | any b subs h ih =>
    intro t' hb
    obtain ⟨s', us, rfl, hl⟩ := Tree.blank_or_inv hb
    refine .any s' us fun u hu => ?_
    obtain ⟨i, hi⟩ := List.getElem?_of_mem hu
    obtain ⟨t, ht, e⟩ := blankL_get? hl hi
    exact ih t (List.mem_of_getElem? ht) u e.symm

end

variable (F : Profile E) (q : Nat) (d : Dict Int) (Z : ExtSpec E → Val E → Prop) (A : Sec → Prop)

/-! ### Composition rules -/

theorem coreL_append {ts us : List (Stmt E)} {ks : List (Core E)} (h : Tree.coreL (ts ++ us) = some ks) :
    ∃ as bs, Tree.coreL ts = some as ∧ Tree.coreL us = some bs ∧ ks = as ++ bs := by
  induction ts generalizing ks with
  | nil => exact ⟨[], ks, rfl, h, rfl⟩
  | cons t ts ih =>
    obtain ⟨a, as, h1, h2, rfl⟩ := Tree.coreL_cons.mp h
    obtain ⟨as', bs, h3, h4, rfl⟩ := ih h2
    exact ⟨a :: as', bs, Tree.coreL_cons.mpr ⟨a, as', h1, h3, rfl⟩, h4, rfl⟩

theorem orIn_count (σ : Store) (x : Sec) {t u : Stmt E} {rest : List (Stmt E)} (h : OrIn t u rest) :
    Good (LeafBuilt F q Z) t → ∀ k, Tree.core t = some k →
    ∃ ku out, Tree.core u = some ku ∧ Good (LeafBuilt F q Z) u ∧
      (∀ y ∈ out, ∃ v ∈ rest, AtLeaf (leafOccurs F) v y) ∧
      Tree.countKey σ (secrets k) x = Tree.countKey σ (secrets ku) x + Tree.countKey σ out x := by
  induction h with
  | here b subs => intro hg k hk; exact ⟨k, [], hk, hg, by simp, rfl⟩
  | down b ls t rs u rest h ih =>
    intro hg k hk
    cases hg with
    | and _ _ hne hg =>
    simp only [Tree.core, Option.map_eq_some_iff] at hk
    obtain ⟨ks, hks, rfl⟩ := hk
    obtain ⟨as, bs, h1, h2, rfl⟩ := coreL_append hks
    obtain ⟨k, bs', h3, h4, rfl⟩ := Tree.coreL_cons.mp h2
    obtain ⟨ku, out, g1, g2, g3, g4⟩ := ih (hg t (by simp)) k h3
    have side : ∀ (vs : List (Stmt E)), (∀ v ∈ vs, Good (LeafBuilt F q Z) v) → ∀ cs, Tree.coreL vs = some cs →
        ∀ y ∈ secretsL cs, ∃ v ∈ vs, AtLeaf (leafOccurs F) v y := by
      intro vs
      induction vs with
      | nil => intro _ cs hcs y hy; cases hcs; simp [secretsL] at hy
      | cons v vs ihv =>
        intro hv cs hcs y hy
        obtain ⟨c, cs', e1, e2, rfl⟩ := Tree.coreL_cons.mp hcs
        simp only [secretsL, List.mem_append] at hy
        rcases hy with hy | hy
        · obtain ⟨c', i1, _, _, i2⟩ := built_core F q Z v (hv v (by simp))
          rw [e1] at i1; cases i1
          exact ⟨v, by simp, i2 y hy⟩
        · obtain ⟨v', hv', hy⟩ := ihv (fun v hv' => hv v (by simp [hv'])) cs' e2 y hy
          exact ⟨v', by simp [hv'], hy⟩
    refine ⟨ku, secretsL as ++ out ++ secretsL bs', g1, g2, fun y hy => ?_, ?_⟩
    · simp only [List.mem_append] at hy
      rcases hy with (hy | hy) | hy
      · obtain ⟨v, hv, hy⟩ := side ls (fun v hv => hg v (by simp [hv])) as h1 y hy
        exact ⟨v, by simp [hv], hy⟩
      · obtain ⟨v, hv, hy⟩ := g3 y hy
        exact ⟨v, by simp [hv], hy⟩
      · obtain ⟨v, hv, hy⟩ := side rs (fun v hv => hg v (by simp [hv])) bs' h4 y hy
        exact ⟨v, by simp [hv], hy⟩
    · simp only [secrets, secretsL_append, secretsL, countKey_append, g4]
      omega

theorem reoccur_of (σ : Store) (fb : List Sec) : ∀ (t : Stmt E) (k : Core E), Tree.core t = some k →
    (∀ u rest, OrIn t u rest → ∀ ku, Tree.core u = some ku → ∀ x ∈ secrets ku,
      Tree.countKey σ fb x ≤ Tree.countKey σ (secrets ku) x) → Tree.reoccur σ fb t = .ok () := by
  intro t
  induction t using Tree.ind with
  | leaf l => intro k hk _; rfl
  | or b subs _ =>
    intro k hk h
    simp only [Tree.core, Option.map_eq_some_iff] at hk
    obtain ⟨ks, hks, rfl⟩ := hk
    have h1 := h _ _ (.here b subs) (.or false ks) (by simp [Tree.core, hks])
    simp only [Tree.reoccur, Tree.core_varsL subs ks hks, secretVarsL_core, bind_ok]
    rw [if_neg]
    intro hc
    rw [List.any_eq_true] at hc
    obtain ⟨x, hx, hc⟩ := hc
    have := h1 x hx
    simp only [secrets] at this
    have hc' := of_decide_eq_true hc
    simp only [coreVarsL] at hc'
    omega
  | and b subs ih =>
    intro k hk h
    simp only [Tree.core, Option.map_eq_some_iff] at hk
    obtain ⟨ks, hks, rfl⟩ := hk
    simp only [Tree.reoccur]
    have hrec : ∀ (pre ts : List (Stmt E)), subs = pre ++ ts → ∀ cs, Tree.coreL ts = some cs →
        Tree.reoccurL σ fb ts = .ok () := by
      intro pre ts
      induction ts generalizing pre with
      | nil => intro _ cs _; rfl
      | cons t ts iht =>
        intro hs cs hcs
        obtain ⟨c, cs', e1, e2, rfl⟩ := Tree.coreL_cons.mp hcs
        simp only [Tree.reoccurL]
        rw [ih t (by rw [hs]; simp) c e1 fun u rest hu ku hku x hx => by
          subst hs
          exact h u _ (.down b pre t ts u rest hu) ku hku x hx, bind_ok]
        exact iht (pre ++ [t]) (by simp [hs]) cs' e2
    exact hrec [] subs rfl ks hks

theorem validate_tidy {σ : Store} {t : Stmt E} (hg : Good (LeafBuilt F q Z) t) (ht : Tidy F σ.name t) :
    Tree.validateComposition σ t = .ok () := by
  obtain ⟨k, h1, h2, h3, h4⟩ := built_core F q Z t hg
  have ho : SameOrders σ k := by
    intro x b y c hx hy _
    rw [h3 x b hx, h3 y c hy]
  have hv : Tree.validateGroupOrders σ t = .ok () := by
    rcases validateGroupOrders_cases σ t k h1 (wf_of_solid h2) with h | h
    · exact h.1
    · exact (h.2 ho).elim
  cases t with
  | leaf l => rfl
  | or s subs => exact hv
  | and s subs =>
    simp only [Tree.validateComposition]
    rw [hv, bind_ok]
    have hks := h1
    simp only [Tree.core, Option.map_eq_some_iff] at hks
    obtain ⟨ks, hks, rfl⟩ := hks
    rw [Tree.core_varsL subs ks hks, secretVarsL_core, bind_ok]
    cases ht with
    | all _ _ _ hp =>
    have := reoccur_of σ (secretsL ks) (.and s subs) _ h1 (fun u rest hu ku hku x hx => by
      obtain ⟨ku', out, g1, g2, g3, g4⟩ := orIn_count F q Z σ x hu hg _ h1
      rw [hku] at g1; cases g1
      simp only [secrets] at g4
      rw [g4]
      have : ¬ 0 < Tree.countKey σ out x := by
        intro hpos
        obtain ⟨y, hy, e⟩ := countKey_pos.mp hpos
        obtain ⟨v, hv, hy⟩ := g3 y hy
        obtain ⟨ku2, i1, _, _, i2⟩ := built_core F q Z u g2
        rw [hku] at i1; cases i1
        refine hp u rest hu x (i2 x hx) v hv y hy ?_
        simp only [Store.key, Prod.mk.injEq] at e
        exact e.1
      omega)
    simpa only [Tree.reoccur] using this

/-! ### Committing -/

theorem mem_stmtOfL_stmt {p : StmtProver E} {ps : List (StmtProver E)} (h : p ∈ ps) :
    PTree.stmtOf p ∈ PTree.stmtOfL ps := by
  rw [stmtOfL_eq]; exact List.mem_map_of_mem h

theorem commit_leaf_progress {σ : Store} (p : LeafProver E) (h : LeafHonest F q Z A σ p)
    (d : Option (Dict Int)) (w : World) (hw : w.store = σ) (hu : ∀ d0, d = some d0 → d0.Uniq σ) :
    ∃ com p' w', ProverOps.internalCommit p d w = .ok ((com, p'), w') ∧ w'.store = σ ∧
      ((∃ b, com = .pt b) ∨ ∃ vs, com = .list vs) := by
  have core : ∀ (S : Sec → Prop) (cp : CoreProver E), Primed (FitIn S valueOf σ) cp →
      Good SolidRep (PTree.stmtOf cp) → Composable σ (PTree.stmtOf cp) →
      ∃ com p' w', PTree.internalCommit cp d w = .ok ((com, p'), w') ∧ w'.store = σ ∧
      ((∃ b, com = .pt b) ∨ ∃ vs, com = .list vs) := fun S cp h1 h2 h3 =>
    commit_progress (PL := FitIn S valueOf σ) (fun q hq => hq.1.1.1) cp h1 h2 h3 d w hw hu
  cases p with
  | dlrep p =>
    obtain ⟨com, p', w', h1, h2, h3⟩ := core _ (.leaf p) (.leaf p h.1) (.leaf _ h.1.1.1.1) (.leaf _)
    simp only [PTree.internalCommit] at h1
    obtain ⟨⟨v, p1⟩, w1, h4, h1⟩ := pm_bind.mp h1
    rw [pm_pure_iff, Prod.mk.injEq, Prod.mk.injEq] at h1
    obtain ⟨⟨rfl, _⟩, rfl⟩ := h1
    have h4' : DLRepProver.internalCommit p d w = .ok ((v, p1), w1) := h4
    refine ⟨v, .dlrep p1, w1, ?_, h2, h3⟩
    simp only [ProverOps.internalCommit]
    rw [pm_bind_eq h4']
    rfl
  | ext p =>
    obtain ⟨cp, k', i1, i2, i3, _, i4, i5, k2, _, _, i6, _, _, _, i7, _⟩ := h
    rw [i2] at i6; cases i6
    obtain ⟨com, p', w', h1, h2, h3⟩ := core _ cp i3 (good_blank (good_of_solid k' i7) _ i4)
      (composable_blank i5 _ i4)
    refine ⟨com, .ext ⟨p.stmt, p.secretValues, some p'⟩, w', ?_, h2, h3⟩
    simp only [ProverOps.internalCommit, ExtProver.internalCommit, i1, i2]
    have : ((do let (v, cp') ← PTree.internalCommit cp d; pure (v, { p with constructed := some cp' })) :
        PM (Val E × ExtProver E)) w = .ok ((com, ⟨p.stmt, p.secretValues, some p'⟩), w') := by
      rw [pm_bind_eq h1]; rfl
    rw [pm_bind_eq this]
    rfl

theorem commit_built {σ : Store} : ∀ (p : StmtProver E) (X : Key → Int),
    Honest (fun p _ => LeafHonest F q Z A σ p) σ p X →
    Good (LeafBuilt F q Z) (PTree.stmtOf p) → Tidy F σ.name (PTree.stmtOf p) →
    ∀ (d : Option (Dict Int)) (w : World), w.store = σ → (∀ d0, d = some d0 → d0.Uniq σ) →
    ∃ com p' w', PTree.internalCommit p d w = .ok ((com, p'), w') ∧ w'.store = σ ∧
      ((∃ b, com = .pt b) ∨ ∃ vs, com = .list vs) := by
  intro p
  induction p using PTree.ind with
  | leaf p =>
    intro X h hg hc d w hw hu
    cases h with
    | leaf _ _ h =>
    obtain ⟨com, p', w', h1, h2, h3⟩ := commit_leaf_progress F q Z A p h d w hw hu
    refine ⟨com, .leaf p', w', ?_, h2, h3⟩
    simp only [PTree.internalCommit]
    rw [pm_bind_eq h1]
    rfl
  | and s subs ih =>
    intro X h hg hc d w hw hu
    simp only [PTree.stmtOf] at hg hc
    cases h with
    | and _ _ _ h =>
    have hval := validate_tidy F q Z hg hc
    obtain ⟨d', w1, h1, h2, h3⟩ := updateRandomizers_built F q Z hg d w (by rw [hw]; exact hu)
    rw [hw] at h2 h3
    have hgs : ∀ t ∈ PTree.stmtOfL subs, Good (LeafBuilt F q Z) t := by
      cases hg with | and _ _ _ hg => exact hg
    have hcs : ∀ t ∈ PTree.stmtOfL subs, Tidy F σ.name t := by
      cases hc with | all _ _ hc _ => exact hc
    have hrec : ∀ (ps : List (StmtProver E)), (∀ p ∈ ps, p ∈ subs) → ∀ w, w.store = σ →
        ∃ vs ps' w', PTree.internalCommitL ps d' w = .ok ((vs, ps'), w') ∧ w'.store = σ := by
      intro ps
      induction ps with
      | nil => intro _ w hw; exact ⟨[], [], w, rfl, hw⟩
      | cons p ps ihp =>
        intro hm w hw
        have hp := hm p (by simp)
        obtain ⟨v, p', w2, g1, g2, _⟩ := ih p hp X (h p hp) (hgs _ (mem_stmtOfL_stmt hp))
          (hcs _ (mem_stmtOfL_stmt hp))
          (some d') w hw (by intro d0 hd; injection hd with hd; subst hd; exact h3)
        obtain ⟨vs, ps', w3, g3, g4⟩ := ihp (fun q hq => hm q (by simp [hq])) w2 g2
        refine ⟨v :: vs, p' :: ps', w3, ?_, g4⟩
        simp only [PTree.internalCommitL]
        rw [pm_bind_eq g1, pm_bind_eq g3]
        rfl
    obtain ⟨vs, ps', w2, g1, g2⟩ := hrec subs (fun p hp => hp) w1 h2
    refine ⟨.list vs, .and s ps', w2, ?_, g2, .inr ⟨vs, rfl⟩⟩
    simp only [PTree.internalCommit]
    rw [pm_getStore_bind, hw, hval, pm_liftE_bind, pm_bind_eq h1, pm_bind_eq g1]
    rfl
  | or s idx stmts sub sims ih =>
    intro X h hg hc d w hw hu
    simp only [PTree.stmtOf] at hg hc
    have hval := validate_tidy F q Z hg hc
    cases h with
    | or _ _ _ _ _ _ X' hidx hso h =>
    have l2 := hso.1
    rw [List.length_eraseIdx_of_lt hidx] at l2
    have l3 : stmts.length = sims.length + 1 := by omega
    have l1 : idx ≤ sims.length := by omega
    have hmem : PTree.stmtOf sub ∈ stmts.set idx (PTree.stmtOf sub) := by
      rw [List.mem_iff_getElem?]
      exact ⟨idx, by simp [hidx]⟩
    have hgs : Good (LeafBuilt F q Z) (PTree.stmtOf sub) := by
      cases hg with | or _ _ _ hg => exact hg _ hmem
    have hcs : Tidy F σ.name (PTree.stmtOf sub) := by
      cases hc with | any _ _ hc => exact hc _ hmem
    obtain ⟨com, p', w1, g1, g2, _⟩ := ih X' h hgs hcs none w hw (by simp)
    have := orSlots_eq idx com (sims.map Sim.commitment) (by simpa using l1)
    refine ⟨.list ((sims.map Sim.commitment).insertIdx idx com), .or s idx stmts p' sims, w1, ?_, g2,
      .inr ⟨_, rfl⟩⟩
    · simp only [PTree.internalCommit]
      rw [pm_getStore_bind, hw, hval, pm_liftE_bind, pm_bind_eq g1]
      simp only
      rw [l3, show sims.length = (sims.map Sim.commitment).length by simp, this, pm_liftE_bind]
      rfl

/-! ### Precommitting -/

theorem aside_precommit {GL SL : Leaf E → Prop} : ∀ (p p' : StmtProver E) (w w' : World) (v : Val E),
    Aside GL SL p → PTree.precommit p w = .ok ((v, p'), w') → Aside GL SL p' := by
  intro p
  induction p using PTree.ind with
  | leaf p =>
    intro p' w w' v _ h
    simp only [PTree.precommit] at h
    obtain ⟨⟨v1, q⟩, w1, h1, h⟩ := pm_bind.mp h
    rw [pm_pure_iff, Prod.mk.injEq, Prod.mk.injEq] at h
    rw [← h.1.2]
    exact .leaf _
  | and s subs ih =>
    intro p' w w' v ha h
    cases ha with
    | and _ _ hne ha =>
    have loop : ∀ (ps : List (StmtProver E)), (∀ p ∈ ps, p ∈ subs) → ∀ (w w' : World) (vs : List (Val E))
        (ps' : List (StmtProver E)), PTree.precommitL ps w = .ok ((vs, ps'), w') →
        (∀ p ∈ ps', Aside GL SL p) ∧ ps'.length = ps.length := by
      intro ps
      induction ps with
      | nil =>
        intro _ w w' vs ps' h
        simp only [PTree.precommitL, pm_pure_iff, Prod.mk.injEq] at h
        rw [← h.1.2]; simp
      | cons p ps ihp =>
        intro hm w w' vs ps' h
        simp only [PTree.precommitL] at h
        obtain ⟨⟨v1, p1⟩, w1, h1, h⟩ := pm_bind.mp h
        obtain ⟨⟨vs1, ps1⟩, w2, h2, h⟩ := pm_bind.mp h
        rw [pm_pure_iff, Prod.mk.injEq, Prod.mk.injEq] at h
        rw [← h.1.2]
        obtain ⟨e1, e2⟩ := ihp (fun q hq => hm q (by simp [hq])) _ _ _ _ h2
        have hp := hm p (by simp)
        exact ⟨List.forall_mem_cons.mpr ⟨ih p hp p1 w w1 v1 (ha p hp) h1, e1⟩, by simp only [List.length_cons, e2]⟩
    simp only [PTree.precommit] at h
    obtain ⟨⟨vs, ps'⟩, w1, h1, h⟩ := pm_bind.mp h
    rw [pm_pure_iff, Prod.mk.injEq, Prod.mk.injEq] at h
    rw [← h.1.2]
    obtain ⟨e1, e2⟩ := loop subs (fun p hp => hp) _ _ _ _ h1
    refine .and s _ ?_ e1
    intro e
    simp only at e
    rw [e] at e2
    exact hne (List.length_eq_zero_iff.mp e2.symm)
  | or s idx stmts sub sims ih =>
    intro p' w w' v ha h
    cases ha with
    | or _ _ _ _ _ hs ha =>
    simp only [PTree.precommit] at h
    obtain ⟨⟨v1, p1⟩, w1, h1, h⟩ := pm_bind.mp h
    obtain ⟨vs, hvs, h⟩ := pm_liftE_bind_iff.mp h
    rw [pm_pure_iff, Prod.mk.injEq, Prod.mk.injEq] at h
    rw [← h.1.2]
    exact .or _ _ _ _ _ hs (ih p1 w w1 v1 ha h1)

theorem built_of {σ : Store} {GL : Leaf E → Prop} : ∀ (p : StmtProver E) (X : Key → Int),
    Honest (fun p _ => LeafHonest F q Z A σ p) σ p X → Aside GL (LeafBuilt F q Z) p →
    Good (LeafBuilt F q Z) (PTree.stmtOf p) := by
  intro p
  induction p using PTree.ind with
  | leaf p =>
    intro X h _
    cases h with
    | leaf _ _ h =>
    cases p with
    | dlrep p => exact .leaf _ ⟨h.1.1.1.1, h.2⟩
    | ext p =>
      obtain ⟨_, _, _, _, _, _, _, _, h⟩ := h
      exact .leaf _ h
  | and s subs ih =>
    intro X h ha
    cases h with
    | and _ _ _ h =>
    cases ha with
    | and _ _ hne ha =>
    simp only [PTree.stmtOf, stmtOfL_eq]
    refine .and s _ (by simpa using hne) fun t ht => ?_
    obtain ⟨p, hp, rfl⟩ := List.mem_map.mp ht
    exact ih p hp X (h p hp) (ha p hp)
  | or s idx stmts sub sims ih =>
    intro X h ha
    cases h with
    | or _ _ _ _ _ _ X' hidx _ h =>
    cases ha with
    | or _ _ _ _ _ hs ha =>
    simp only [PTree.stmtOf]
    refine .or s _ ?_ fun t ht => ?_
    · intro e
      have := congrArg List.length e
      simp at this
      subst this; simp at hidx
    · rw [set_eq_insertIdx _ _ _ hidx] at ht
      rcases List.eq_or_mem_of_mem_insertIdx ht with rfl | ht
      · exact ih X' h ha
      · exact (hs t ht).2

/-- Precommitting does not fail. -/
theorem precommit_runs (hA : ∀ e ∈ d, ¬ A e.1) (hZ : ∀ sp s, ¬ Z sp (.str s)) :
    ∀ (p : StmtProver E) (X : Key → Int) (w : World),
    Primed (LeafFit F q d Z A w.store) p →
    Honest (fun p _ => LeafFit F q d Z A w.store p) w.store p X → Apart (leafFoot F) (leafScope F A) p →
    Firm (leafOutside F) p →
    ∃ v p' w', PTree.precommit p w = .ok ((v, p'), w') ∧ w'.store.name = w.store.name ∧ ∀ s, v ≠ .str s := by
  intro p
  induction p using PTree.ind with
  | leaf p =>
    intro X w hp _ _ _
    cases hp with
    | leaf _ hp =>
    cases p with
    | dlrep p => exact ⟨.none, .leaf (.dlrep p), w, rfl, rfl, by simp⟩
    | ext p =>
      obtain ⟨v, p', w', h1, h2, h3, h4, h5, h6, h7⟩ := precommit_leaf_ext F q d Z A hA p w hp
      refine ⟨v, .leaf (.ext p'), w', ?_, h4, ?_⟩
      · simp only [PTree.precommit]
        have : (ProverOps.precommit (LeafProver.ext p) : PM (Val E × LeafProver E)) w =
            .ok ((v, .ext p'), w') := by
          simp only [ProverOps.precommit]
          rw [pm_bind_eq h1]; rfl
        rw [pm_bind_eq this]
        rfl
      · obtain ⟨_, _, _, _, _, _, _, _, _, _, _, _, _, _, _, _, _, _, hz⟩ := h5 w'.store (Same.refl _ _)
        rw [h7] at hz
        rintro s rfl
        exact hZ _ s hz
  | and s subs ih =>
    intro X w hp hh ha hf
    cases hp with
    | and _ _ hne hp =>
    cases hh with
    | and _ _ _ hh =>
    cases ha with
    | and _ _ ha hd =>
    cases hf with
    | and _ _ hf =>
    have loop : ∀ (ps : List (StmtProver E)) (off : Nat), (∀ i, subs[off + i]? = ps[i]?) → ∀ (w : World),
        (∀ p ∈ ps, Primed (LeafFit F q d Z A w.store) p) →
        (∀ p ∈ ps, Honest (fun p _ => LeafFit F q d Z A w.store p) w.store p X) →
        ∃ vs ps' w', PTree.precommitL ps w = .ok ((vs, ps'), w') ∧ w'.store.name = w.store.name := by
      intro ps
      induction ps with
      | nil => intro _ _ w _ _; exact ⟨[], [], w, rfl, rfl⟩
      | cons p ps ihl =>
        intro off hoff w hp hh
        have h0 : subs[off]? = some p := by simpa using hoff 0
        have hpm : p ∈ subs := List.mem_of_getElem? h0
        have hq : ∀ q ∈ ps, ∀ x, Foot (leafFoot F) p x → ¬ Scope (leafScope F A) q x := by
          intro q hq
          obtain ⟨j, hj⟩ := List.getElem?_of_mem hq
          have hj' : subs[off + (j + 1)]? = some q := by rw [hoff (j + 1)]; simpa using hj
          exact fun x => hd off (off + (j + 1)) p q x (by omega) h0 hj'
        obtain ⟨v1, p1, w1, h1, h2, _⟩ := ih p hpm X w (hp p (by simp)) (hh p (by simp)) (ha p hpm) (hf p hpm)
        obtain ⟨e1, _⟩ := precommit_lawL (leafOutside_blank F) X (leafFit_stab F q d Z A hA) (precommitLeaf_stmt F q d Z A hA)
          p p1 w w1 v1 (hp p (by simp)) (hh p (by simp)) (ha p hpm) (hf p hpm) h1
        have hkeep : ∀ q ∈ ps, Same (Scope (leafScope F A) q) w.store w1.store := fun q hq' x hx =>
          e1 x fun hf => hq q hq' x hf hx
        obtain ⟨vs, ps', w2, g1, g2⟩ := ihl (off + 1)
          (fun i => by have := hoff (i + 1); rw [show off + 1 + i = off + (i + 1) by omega, this]; simp)
          w1 (fun u hq' => primed_stab (leafFit_stab F q d Z A hA) u _ _ (hp u (by simp [hq'])) (hkeep u hq'))
          (fun u hq' => honest_stab (leafFit_stab F q d Z A hA) u _ _ X (hh u (by simp [hq'])) (hkeep u hq'))
        refine ⟨v1 :: vs, p1 :: ps', w2, ?_, g2.trans h2⟩
        simp only [PTree.precommitL]
        rw [pm_bind_eq h1, pm_bind_eq g1]
        rfl
    obtain ⟨vs, ps', w', h1, h2⟩ := loop subs 0 (fun i => by simp) w hp hh
    refine ⟨PTree.andPrecommitment vs, .and s ps', w', ?_, h2, ?_⟩
    · simp only [PTree.precommit]
      rw [pm_bind_eq h1]
      rfl
    · unfold PTree.andPrecommitment
      split <;> simp
  | or s idx stmts sub sims ih =>
    intro X w hp hh ha hf
    cases hp with
    | or _ _ _ _ _ hidx hsims hcore hp =>
    cases hh with
    | or _ _ _ _ _ _ X' _ hso hh =>
    cases ha with
    | or _ _ _ _ _ ha hd =>
    obtain ⟨v, p1, w1, h1, h2, _⟩ := ih X' w hp hh ha (firm_of_active _ (by cases hf with | or _ _ _ _ _ hf => exact hf))
    have l2 := hso.1
    rw [List.length_eraseIdx_of_lt hidx] at l2
    have l3 : stmts.length = sims.length + 1 := by omega
    have l1 : idx ≤ sims.length := by omega
    have := orSlots_eq idx v (sims.map Sim.precommitment) (by simpa using l1)
    refine ⟨if ((sims.map Sim.precommitment).insertIdx idx v).any Val.truthy then
      .list ((sims.map Sim.precommitment).insertIdx idx v) else .none, .or s idx stmts p1 sims, w1, ?_, h2, ?_⟩
    · simp only [PTree.precommit]
      rw [pm_bind_eq h1]
      simp only
      rw [l3, show sims.length = (sims.map Sim.precommitment).length by simp, this, pm_liftE_bind]
      rfl
    · split <;> simp

/-! ### Places apart -/

theorem mem_set_of_lt {α : Type} {l : List α} {i : Nat} (h : i < l.length) (a : α) : (l.set i a)[i]? = some a := by
  simp [h]

theorem foot_at {PL : LeafProver E → Prop} {p : StmtProver E} {x : Sec} (h : Foot (leafFoot F) p x) :
    Primed PL p → AtLeaf (leafWrites F) (PTree.stmtOf p) x := by
  induction h with
  | leaf p x h =>
    intro _
    cases p with
    | dlrep p => exact h.elim
    | ext p => exact .leaf _ _ h
  | and s subs p x hp _ ih =>
    intro hpr
    cases hpr with
    | and _ _ _ hpr => exact .all _ _ _ _ (mem_stmtOfL_stmt hp) (ih (hpr p hp))
  | or s idx stmts sub sims x _ ih =>
    intro hpr
    cases hpr with
    | or _ _ _ _ _ hidx _ _ hpr =>
      exact .any _ _ _ _ (List.mem_of_getElem? (mem_set_of_lt hidx _)) (ih hpr)

theorem occurs_own {σ : Store} {t : Stmt E} {x : Sec} (h : AtLeaf (leafOccurs F) t x) :
    Good (LeafGood F q Z A σ) t → ¬ A x ∨ AtLeaf (leafWrites F) t x := by
  induction h with
  | leaf l x h =>
    intro hg
    cases hg with
    | leaf _ hg =>
    cases l with
    | dlrep s => exact .inl (hg.1.2.1 x h)
    | ext s =>
      by_cases ha : A x
      · exact .inr (.leaf _ _ (hg.2.2.1 x (hg.2.1 x h) ha))
      · exact .inl ha
  | all b subs t x ht _ ih =>
    intro hg
    cases hg with
    | and _ _ _ hg =>
    rcases ih (hg t ht) with h | h
    · exact .inl h
    · exact .inr (.all _ _ _ _ ht h)
  | any b subs t x ht _ ih =>
    intro hg
    cases hg with
    | or _ _ _ hg =>
    rcases ih (hg t ht) with h | h
    · exact .inl h
    · exact .inr (.any _ _ _ _ ht h)

theorem inCores_own {σ : Store} {ts : List (Stmt E)}
    (hs : ∀ t ∈ ts, Good (LeafGood F q Z A σ) t ∧ Good (LeafBuilt F q Z) t) {x : Sec} (h : InCores ts x) :
    ¬ A x ∨ ∃ t ∈ ts, AtLeaf (leafWrites F) t x := by
  obtain ⟨t, ht, k, hk, hx⟩ := h
  obtain ⟨k', h1, _, _, h2⟩ := built_core F q Z t (hs t ht).2
  rw [hk] at h1; cases h1
  rcases occurs_own F q Z A (h2 x hx) (hs t ht).1 with h | h
  · exact .inl h
  · exact .inr ⟨t, ht, h⟩

theorem erased_at {stmts : List (Stmt E)} {idx : Nat} {u t : Stmt E} (h : t ∈ stmts.eraseIdx idx) :
    ∃ j, j ≠ idx ∧ (stmts.set idx u)[j]? = some t := by
  rw [List.mem_eraseIdx_iff_getElem?] at h
  obtain ⟨j, hj, h⟩ := h
  exact ⟨j, hj, by rw [List.getElem?_set_ne (Ne.symm hj)]; exact h⟩

theorem scope_at {σ : Store} {PL : LeafProver E → Prop} {p : StmtProver E} {x : Sec}
    (h : Scope (leafScope F A) p x) : Primed PL p → Aside (LeafGood F q Z A σ) (LeafBuilt F q Z) p →
    ¬ A x ∨ AtLeaf (leafWrites F) (PTree.stmtOf p) x := by
  induction h with
  | leaf p x h =>
    intro _ _
    cases p with
    | dlrep p => exact .inl h
    | ext p => exact h.imp id fun h => .leaf _ _ h
  | and s subs p x hp _ ih =>
    intro hpr ha
    cases hpr with
    | and _ _ _ hpr =>
    cases ha with
    | and _ _ _ ha =>
    exact (ih (hpr p hp) (ha p hp)).imp id fun h => .all _ _ _ _ (mem_stmtOfL_stmt hp) h
  | or s idx stmts sub sims x _ ih =>
    intro hpr ha
    cases hpr with
    | or _ _ _ _ _ hidx _ _ hpr =>
    cases ha with
    | or _ _ _ _ _ hs ha =>
    exact (ih hpr ha).imp id fun h => .any _ _ _ _ (List.mem_of_getElem? (mem_set_of_lt hidx _)) h
  | sims s idx stmts sub sims x h =>
    intro hpr ha
    cases ha with
    | or _ _ _ _ _ hs ha =>
    rcases inCores_own F q Z A hs h with h | ⟨t, ht, h⟩
    · exact .inl h
    · obtain ⟨j, _, hj⟩ := erased_at (u := PTree.stmtOf sub) ht
      exact .inr (.any _ _ _ _ (List.mem_of_getElem? hj) h)

theorem apart_of {σ : Store} {PL : LeafProver E → Prop} : ∀ (p : StmtProver E), Primed PL p →
    Aside (LeafGood F q Z A σ) (LeafBuilt F q Z) p → Separate F (PTree.stmtOf p) →
    (∀ x, AtLeaf (leafWrites F) (PTree.stmtOf p) x → A x) → Apart (leafFoot F) (leafScope F A) p := by
  intro p
  induction p using PTree.ind with
  | leaf p => intro _ _ _ _; exact .leaf p
  | and s subs ih =>
    intro hp ha hs hA
    cases hp with
    | and _ _ _ hp =>
    cases ha with
    | and _ _ _ ha =>
    simp only [PTree.stmtOf] at hs hA
    cases hs with
    | all _ _ hs hd =>
    refine .and s subs (fun p hm => ih p hm (hp p hm) (ha p hm) (hs _ (mem_stmtOfL_stmt hm))
      fun x hx => hA x (.all _ _ _ _ (mem_stmtOfL_stmt hm) hx)) fun i j p p2 x hij h1 h2 hf hsc => ?_
    have m1 := List.mem_of_getElem? h1
    have m2 := List.mem_of_getElem? h2
    have f1 := foot_at F hf (hp p m1)
    rcases scope_at F q Z A hsc (hp p2 m2) (ha p2 m2) with h | h
    · exact h (hA x (.all _ _ _ _ (mem_stmtOfL_stmt m1) f1))
    · refine hd i j _ _ x hij ?_ ?_ f1 h
      · rw [stmtOfL_eq, List.getElem?_map, h1]; rfl
      · rw [stmtOfL_eq, List.getElem?_map, h2]; rfl
  | or s idx stmts sub sims ih =>
    intro hp ha hs hA
    cases hp with
    | or _ _ _ _ _ hidx _ _ hp =>
    cases ha with
    | or _ _ _ _ _ hss ha =>
    simp only [PTree.stmtOf] at hs hA
    cases hs with
    | any _ _ hs hd =>
    have h0 := mem_set_of_lt hidx (PTree.stmtOf sub)
    have hm := List.mem_of_getElem? h0
    refine .or _ _ _ _ _ (ih hp ha (hs _ hm) fun x hx => hA x (.any _ _ _ _ hm hx)) fun x hf hin => ?_
    have f1 := foot_at F hf hp
    rcases inCores_own F q Z A hss hin with h | ⟨t, ht, h⟩
    · exact h (hA x (.any _ _ _ _ hm f1))
    · obtain ⟨j, hj, hg⟩ := erased_at (u := PTree.stmtOf sub) ht
      exact hd idx j _ _ x (Ne.symm hj) h0 hg f1 h

/-! ### Whole runs -/

theorem chunk_stmt (env : Env E) {v : Val E} (h : ∀ s, v ≠ .str s) : ∃ b, env.chunk v = .ok b := by
  cases v with
  | str s => exact (h s rfl).elim
  | _ => exact ⟨_, rfl⟩

theorem getProver_stmt (hA : ∀ e ∈ d, ¬ A e.1) {t : Stmt E} (ht : ∀ s, t ≠ .leaf (.dlrep s)) {w : World}
    (hd : d.Uniq (updateSecretValues w.store d))
    (hg : GoodT (LeafOuter F q A) (LeafGood F q Z A (updateSecretValues w.store d)) t)
    (hs : ProvedLeaf (LeafSat F q d Z (updateSecretValues w.store d)) t) :
    ∃ p t' w1, (PTree.getProver t d : PM (Option (StmtProver E) × Stmt E)) w = .ok ((some p, t'), w1) ∧
      w1.store = updateSecretValues w.store d ∧ Primed (LeafFit F q d Z A w1.store) p ∧
      Honest (fun p _ => LeafFit F q d Z A w1.store p) w1.store p valueOf ∧
      Tree.blank (PTree.stmtOf p) = Tree.blank t ∧ Aside (LeafGood F q Z A w1.store) (LeafBuilt F q Z) p ∧
      Firm (leafOutside F) p := by
  have hu := updateSecretValues_idem w.store d
  obtain ⟨p, t', w1, h⟩ := getProver_goodT F q d Z A hu hd hA t hg hs
    { w with store := updateSecretValues w.store d } rfl
  obtain ⟨h1, _, _, h2⟩ := getProver_fullT (getLaws_stmt F q d Z A _ hu hd hA) (get_stmt F q d Z A _ hu hd hA)
    valueOf t hg (sat_of_proved F q d Z hs) t' (some p) _ w1 rfl h
  obtain ⟨h3, h4, h5, h6, h7⟩ := h2 p rfl
  have h6' := aside_wider (SL' := LeafBuilt F q Z) (fun _ h => h.1) h6
  refine ⟨p, t', w1, ?_, h1, h1 ▸ h3, h1 ▸ h4, h5, h1 ▸ h6', h7⟩
  rw [← h]
  cases t with
  | and s subs => simp only [PTree.getProver, pm_getStore_bind, pm_setStore_bind, updateSecretValues_idem]
  | or s subs => simp only [PTree.getProver, pm_getStore_bind, pm_setStore_bind, updateSecretValues_idem]
  | leaf l =>
    cases l with
    | dlrep s => exact (ht s rfl).elim
    | ext s =>
      simp only [PTree.getProver, ProverOps.getProver]
      unfold ExtProver.getProver
      simp only [pm_getStore_bind, pm_setStore_bind, bind_assoc, updateSecretValues_idem]

/-- Everything that happens up to the commitment. -/
theorem stmt_commits (hA : ∀ e ∈ d, ¬ A e.1) (hZ : ∀ sp s, ¬ Z sp (.str s)) {t : Stmt E} {p : StmtProver E}
    {w1 : World} (e1 : Primed (LeafFit F q d Z A w1.store) p)
    (e2 : Honest (fun p _ => LeafFit F q d Z A w1.store p) w1.store p valueOf)
    (e3 : Tree.blank (PTree.stmtOf p) = Tree.blank t)
    (e4 : Aside (LeafGood F q Z A w1.store) (LeafBuilt F q Z) p) (e5 : Firm (leafOutside F) p)
    (hsep : Separate F t) (hAw : ∀ x, AtLeaf (leafWrites F) t x → A x) (htidy : Tidy F w1.store.name t) :
    Apart (leafFoot F) (leafScope F A) p ∧
    ∃ v p1 w2 com p2 w3, PTree.precommit p w1 = .ok ((v, p1), w2) ∧ (∀ s, v ≠ .str s) ∧
      PTree.internalCommit p1 none w2 = .ok ((com, p2), w3) ∧ (∀ s, com ≠ .str s) ∧
      w2.store.name = w1.store.name ∧ w3.store = w2.store ∧ Good (LeafBuilt F q Z) (PTree.stmtOf p1) ∧
      Same (fun x => ¬ AtLeaf (leafWrites F) t x) w1.store w2.store := by
  have hap : Apart (leafFoot F) (leafScope F A) p := apart_of F q Z A p e1 e4 (separate_blank F hsep _ e3)
    fun x hx => hAw x (atLeaf_blank (leafWrites_blank F) hx t e3.symm)
  obtain ⟨v, p1, w2, h1, h2, h3⟩ := precommit_runs F q d Z A hA hZ p valueOf w1 e1 e2 hap e5
  obtain ⟨g1, g2, g3, g4, g5⟩ := precommit_lawL (leafOutside_blank F) valueOf
    (leafFit_stab F q d Z A hA) (precommitLeaf_stmt F q d Z A hA) p p1 w1 w2 v e1 e2 hap e5 h1
  have hh := g2 w2.store (Same.refl _ _)
  have hb := built_of F q Z A p1 valueOf hh (aside_precommit p p1 w1 w2 v e4 h1)
  have htidy' : Tidy F w2.store.name (PTree.stmtOf p1) := by
    rw [h2]; exact tidy_blank F htidy _ (g5.trans e3)
  obtain ⟨com, p2, w3, k1, k2, k3⟩ := commit_built F q Z A p1 valueOf hh hb htidy' none w2 rfl (by simp)
  refine ⟨hap, v, p1, w2, com, p2, w3, h1, h3, k1, ?_, h2, k2, hb, fun x hx => g1 x fun hf => hx ?_⟩
  · rcases k3 with ⟨b, rfl⟩ | ⟨vs, rfl⟩ <;> simp
  · exact atLeaf_blank (leafWrites_blank F) (foot_at F hf e1) t e3.symm

theorem sees_apart {σ σv : Store} {vs : List Sec} (h : ∀ x ∈ vs, ∀ y ∈ vs, σ.name x = σ.name y → x = y)
    (hv : ∀ x ∈ vs, ∀ y ∈ vs, σv.name x = σv.name y → x = y) : Sees σ σv vs := by
  constructor
  · constructor
    · simp
    · intro i j a b a' b' h1 h2 h3 h4
      rw [List.getElem?_map, Option.map_eq_some_iff] at h1 h2 h3 h4
      obtain ⟨x, hx, rfl⟩ := h1
      obtain ⟨y, hy, rfl⟩ := h2
      obtain ⟨x', hx', rfl⟩ := h3
      obtain ⟨y', hy', rfl⟩ := h4
      rw [hx] at hx'; rw [hy] at hy'
      cases hx'; cases hy'
      have mx := List.mem_of_getElem? hx
      have my := List.mem_of_getElem? hy
      constructor
      · intro e; rw [h x mx y my e]
      · intro e; rw [hv x mx y my e]
  · intro x hx y hy e
    rw [hv x hx y hy (congrArg Prod.fst e)]

/-- A proof for a statement that fails validation is rejected with that exception. -/
theorem verify_invalid {t tv : Stmt E} {v r : Val E} (ha : Digests t v) {σv : Store}
    (hj : Tree.Judge σv tv t) {e : Err} (hval : Tree.fullValidate t = .error e) {k : Core E}
    (hk : Tree.core t = some k) {S : Skel E} (hS : Tree.skel t = some S) {id : PId E}
    (hid : IsId S ((secrets k).map σv.name) id) {env : Env E} {c : Int} {msg : String} :
    verify env σv tv ⟨c, r, v, env.digest id⟩ msg = .error e := by
  obtain ⟨t1, h1, h2, h3, _, h5⟩ := digest_of ha σv hj
  have hvars : Tree.secretVars t1 = .ok (secrets k) := by
    rw [Tree.core_vars t1 k (h3.trans hk), secretVars_core]
  have hc : checkStatement env σv t1 (env.digest id) = .ok id := by
    unfold checkStatement
    rw [(proofId_iff (h2.trans hS) hvars).mpr hid]; simp [bind_ok]
  unfold verify
  simp only [h1, bind_ok, hc]
  unfold preVerification
  rw [h5, hval]
  rfl

/-- **Honest runs succeed and are accepted.** -/
theorem stmt_run (hA : ∀ e ∈ d, ¬ A e.1) (hZ : ∀ sp s, ¬ Z sp (.str s)) {t : Stmt E}
    (ht : ∀ s, t ≠ .leaf (.dlrep s)) {w : World}
    (hd : d.Uniq (updateSecretValues w.store d))
    (hg : GoodT (LeafOuter F q A) (LeafGood F q Z A (updateSecretValues w.store d)) t)
    (hs : ProvedLeaf (LeafSat F q d Z (updateSecretValues w.store d)) t)
    (hsep : Separate F t) (hAw : ∀ x, AtLeaf (leafWrites F) t x → A x) (htidy : Tidy F w.store.name t)
    (env : Env E) (msg : String) :
    ∃ p t' w1, (PTree.getProver t d : PM (Option (StmtProver E) × Stmt E)) w = .ok ((some p, t'), w1) ∧
      w1.store = updateSecretValues w.store d ∧
      (∃ nizk p' w2, PTree.getNizkProof env p msg w1 = .ok ((nizk, p'), w2) ∧
        w2.store.name = w.store.name ∧ Good (LeafBuilt F q Z) (PTree.stmtOf p') ∧
        Tree.blank (PTree.stmtOf p') = Tree.blank t ∧ Digests (PTree.stmtOf p') nizk.precommitment ∧
        (∀ x, ¬ AtLeaf (leafWrites F) t x → w2.store.key x = w1.store.key x) ∧
        ∀ (σv : Store) (tv : Stmt E), Tree.Judge σv tv t →
          (∀ k, Tree.core (PTree.stmtOf p') = some k → Sees w2.store σv (secrets k)) →
          verify env σv tv nizk msg = (Tree.fullValidate (PTree.stmtOf p')).map fun _ => true) ∧
      ∃ v p1 w2, PTree.precommit p w1 = .ok ((v, p1), w2) ∧ w2.store.name = w.store.name ∧
        Good (LeafBuilt F q Z) (PTree.stmtOf p1) ∧ Tree.blank (PTree.stmtOf p1) = Tree.blank t ∧
        Digests (PTree.stmtOf p1) v ∧
        ∀ (σv : Store) (tv : Stmt E), Tree.Judge σv tv t → Tree.fullValidate (PTree.stmtOf p1) = .ok () →
          (∀ k, Tree.core (PTree.stmtOf p1) = some k → Sees w2.store σv (secrets k)) →
          (∀ t1, Tree.process σv (Tree.freshVerifier tv) v = .ok t1 → Tree.gate t1 = .ok ()) →
          ∃ w', sigmaProtocol env σv tv p w1 = .ok (true, w') := by
  obtain ⟨p, t', w1, h, e0, e1, e2, e3, e4, e5⟩ := getProver_stmt F q d Z A hA ht hd hg hs
  have hn1 : w1.store.name = w.store.name := by rw [e0, updateSecretValues_name]
  obtain ⟨hap, v, p1, w2, com, p2, w3, hpre, hv, hcom, hcv, hn2, hw3, hb, hsame⟩ :=
    stmt_commits F q d Z A hA hZ e1 e2 e3 e4 e5 hsep hAw (hn1 ▸ htidy)
  have hrun : Runs valueOf p w1 := runs_ofL (leafOutside_blank F) (leafFit_stab F q d Z A hA)
    (precommitLeaf_stmt F q d Z A hA) (commitLeaf_stmt F q Z A) e1 e2 hap e5
  obtain ⟨g2, g3, g4, g5, k, g6, g7, g8⟩ := hrun v p1 w2 com p2 w3 hpre hcom
  refine ⟨p, t', w1, h, e0, ?_, v, p1, w2, hpre, hn2.trans hn1, hb, g5.trans e3, g3, ?_⟩
  · obtain ⟨S, hS⟩ : ∃ S, Tree.skel (PTree.stmtOf p2) = some S := by
      rw [← Option.isSome_iff_exists, ← Tree.core_skel, g4, g6]; rfl
    obtain ⟨id, _, hid, _⟩ := Tree.proofId_isOk (σ := w3.store) hS
    obtain ⟨a, ha⟩ := chunk_stmt env hv
    obtain ⟨b, hb'⟩ := chunk_stmt env hcv
    obtain ⟨c, hfs⟩ : ∃ c, env.fiatShamir id v com msg = .ok c := by
      unfold Env.fiatShamir Env.challengeInput
      simp only [ha, hb', bind_ok]
      exact ⟨_, rfl⟩
    obtain ⟨⟨q', hq⟩, ρ, _, hresp⟩ := g8
    obtain ⟨r, w4, i1, i2, i3, i4⟩ := hresp q' hq c w3 g2
    have hn : PTree.getNizkProof env p msg w1 = .ok ((⟨c, r, v, env.digest id⟩, p2), w4) := by
      unfold PTree.getNizkProof
      rw [pm_bind_eq hpre]
      simp only
      rw [pm_bind_eq hcom]
      simp only
      rw [pm_getStore_bind, hid, pm_liftE_bind, hfs, pm_liftE_bind, pm_bind_eq i1]
      rfl
    refine ⟨_, _, _, hn, ?_, g4 ▸ hb, by rw [g4]; exact g5.trans e3, g4 ▸ g3, ?_, ?_⟩
    · rw [i2]; exact hn2.trans hn1
    · intro x hx; rw [i2]; exact hsame x hx
    · intro σv tv hj hsee
      cases hval : Tree.fullValidate (PTree.stmtOf p2) with
      | ok u =>
        exact nizk_of_runs hrun hn (Tree.judge_blank e3 hj) hval hsee
      | error e =>
        rw [g4] at hid hS hval hsee
        rw [g2] at hid
        have hsk := hsee k g6
        rw [i2] at hsk
        exact verify_invalid g3 (Tree.judge_blank (g5.trans e3) hj) hval g6 hS
          (isId_of_sees hS g6 hid hsk)
  · intro σv tv hj hval hsee hgate
    exact sigma_of_runs hrun hpre hcom (Tree.judge_blank e3 hj) hval hsee hgate

end Zksk
