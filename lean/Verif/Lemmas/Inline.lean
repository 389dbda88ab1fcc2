import Verif.Lemmas.StmtRun
import Verif.Lemmas.Hvzk

/-! Statements with extended parts, when the constructed statements are put in the place of these parts. -/

set_option linter.unusedSectionVars false

namespace Zksk

open Spec

variable {E : Type} [AddCommGroup E] [DecidableEq E]

/-! ### Definitions -/

/-- Conjunctions only, with extended parts that have been constructed. -/
inductive Settled : Stmt E → Prop
  | rep (s : DLRep E) : Settled (.leaf (.dlrep s))
  | ext (s : Ext E) (k : Core E) (hk : s.constructed = some k) (hf : OrFree k) : Settled (.leaf (.ext s))
  | and (b : Bool) (subs : List (Stmt E)) (h : ∀ t ∈ subs, Settled t) : Settled (.and b subs)

mutual
/-- The statement with constructed statements in the place of extended parts. -/
def inlT : Stmt E → Option (Core E)
  | .leaf (.dlrep s) => some (.leaf s)
  | .leaf (.ext s) => s.constructed
  | .and b subs => (inlTL subs).map (.and b)
  | .or _ _ => none
/-- `inlT` for lists. -/
def inlTL : List (Stmt E) → Option (List (Core E))
  | [] => some []
  | t :: ts => (inlT t).bind fun u => (inlTL ts).map (u :: ·)
end

mutual
/-- The prover with the provers of constructed statements in the place of extended parts. -/
def inlP : StmtProver E → Option (CoreProver E)
  | .leaf (.dlrep p) => some (.leaf p)
  | .leaf (.ext p) => p.constructed
  | .and b subs => (inlPL subs).map (.and b)
  | .or _ _ _ _ _ => none
/-- `inlP` for lists. -/
def inlPL : List (StmtProver E) → Option (List (CoreProver E))
  | [] => some []
  | t :: ts => (inlP t).bind fun u => (inlPL ts).map (u :: ·)
end

mutual
/-- The precommitment in a simulated transcript. -/
def simPre : Stmt E → Val E
  | .leaf (.dlrep _) => .none
  | .leaf (.ext s) => s.precommitment
  | .and _ subs => .list (simPreL subs)
  | .or _ subs => .list (simPreL subs)
/-- `simPre` for lists. -/
def simPreL : List (Stmt E) → List (Val E)
  | [] => []
  | t :: ts => simPre t :: simPreL ts
end

theorem inlTL_cons {t : Stmt E} {ts : List (Stmt E)} {us : List (Core E)} :
    inlTL (t :: ts) = some us ↔ ∃ u us', inlT t = some u ∧ inlTL ts = some us' ∧ us = u :: us' := by
  simp only [inlTL, Option.bind_eq_some_iff, Option.map_eq_some_iff]
  constructor
  · rintro ⟨u, h1, us', h2, rfl⟩; exact ⟨u, us', h1, h2, rfl⟩
  · rintro ⟨u, us', h1, h2, rfl⟩; exact ⟨u, h1, us', h2, rfl⟩

theorem inlPL_cons {t : StmtProver E} {ts : List (StmtProver E)} {us : List (CoreProver E)} :
    inlPL (t :: ts) = some us ↔ ∃ u us', inlP t = some u ∧ inlPL ts = some us' ∧ us = u :: us' := by
  simp only [inlPL, Option.bind_eq_some_iff, Option.map_eq_some_iff]
  constructor
  · rintro ⟨u, h1, us', h2, rfl⟩; exact ⟨u, us', h1, h2, rfl⟩
  · rintro ⟨u, us', h1, h2, rfl⟩; exact ⟨u, h1, us', h2, rfl⟩

/-! ### Statements -/

/-- The inlined statement has the same public part. -/
theorem inlT_core {t : Stmt E} (h : Settled t) : ∃ u, inlT t = some u ∧ OrFree u ∧
    Tree.core t = some (Tree.blank u) := by
  induction h with
  | rep s => exact ⟨.leaf s, rfl, .rep s, rfl⟩
  | ext s k hk hf => exact ⟨k, hk, hf, by simp [Tree.core, StmtView.core, hk, core_blank]⟩
  | and b subs h ih =>
    have key : ∀ ts : List (Stmt E), (∀ t ∈ ts, t ∈ subs) → ∃ us, inlTL ts = some us ∧ (∀ u ∈ us, OrFree u) ∧
        Tree.coreL ts = some (Tree.blankL us) := by
      intro ts
      induction ts with
      | nil => intro _; exact ⟨[], rfl, by simp, rfl⟩
      | cons t ts iht =>
        intro hm
        obtain ⟨u, h1, h2, h3⟩ := ih t (hm t (by simp))
        obtain ⟨us, g1, g2, g3⟩ := iht fun t ht => hm t (by simp [ht])
        exact ⟨u :: us, inlTL_cons.mpr ⟨u, us, h1, g1, rfl⟩, by simpa using ⟨h2, g2⟩,
          Tree.coreL_cons.mpr ⟨_, _, h3, g3, rfl⟩⟩
    obtain ⟨us, g1, g2, g3⟩ := key subs fun t ht => ht
    exact ⟨.and b us, by simp [inlT, g1], .all b us g2, by simp [Tree.core, g3, Tree.blank]⟩

theorem updateRandomizers_inl {t : Stmt E} {u : Core E} (h : Tree.core t = some (Tree.blank u))
    (d : Option (Dict Int)) : Tree.updateRandomizers t d = Tree.updateRandomizers u d := by
  have h1 : Tree.secretVars t = Tree.secretVars u := by
    rw [Tree.core_vars t _ h, ← Tree.core_vars u _ (core_blank u)]
  have h2 : Tree.bases t = Tree.bases u := by
    rw [Tree.core_bases t _ h, ← Tree.core_bases u _ (core_blank u)]
  simp only [Tree.updateRandomizers, Tree.getRandomizers, h1, h2]

/-- Simulating the inlined statement. -/
theorem simulate_inl {t : Stmt E} (h : Settled t) : ∀ (u : Core E), inlT t = some u →
    ∀ (d : Option (Dict Int)) (c : Option Int) (w w' : World) (sim : Sim E),
    Tree.simulate u d c w = .ok (sim, w') →
    Tree.simulate t d c w = .ok ({ sim with precommitment := simPre t }, w') := by
  induction h with
  | rep s =>
    intro u hu d c w w' sim h
    simp only [inlT, Option.some.injEq] at hu
    subst hu
    have : sim.precommitment = .none := by
      simp only [Tree.simulate, StmtOps.simulate, DLRep.simulate] at h
      obtain ⟨_, _, _, h⟩ := pm_bind.mp h
      obtain ⟨_, _, _, h⟩ := pm_bind.mp h
      rw [pm_getStore_bind] at h
      obtain ⟨_, _, h⟩ := pm_liftE_bind_iff.mp h
      obtain ⟨_, _, h⟩ := pm_liftE_bind_iff.mp h
      rw [pm_pure_iff, Prod.mk.injEq] at h
      rw [← h.1]
    have h' : Tree.simulate (.leaf (.dlrep s) : Stmt E) d c w = .ok (sim, w') := h
    rw [h', simPre, ← this]
  | ext s k hk hf =>
    intro u hu d c w w' sim h
    simp only [inlT, hk, Option.some.injEq] at hu
    subst hu
    simp only [Tree.simulate, StmtOps.simulate, Ext.simulate, Ext.inner, hk]
    rw [pm_liftE_bind, pm_bind_eq h]
    rfl
  | and b subs hs ih =>
    intro u hu d c w w' sim h
    obtain ⟨u', hu', _, hcore⟩ := inlT_core (.and b subs hs)
    rw [hu] at hu'; cases hu'
    simp only [inlT, Option.map_eq_some_iff] at hu
    obtain ⟨us, hus, rfl⟩ := hu
    simp only [Tree.simulate] at h ⊢
    obtain ⟨d', w1, h1, h⟩ := pm_bind.mp h
    obtain ⟨c', w2, h2, h⟩ := pm_bind.mp h
    obtain ⟨sims, w3, h3, h⟩ := pm_bind.mp h
    rw [pm_pure_iff, Prod.mk.injEq] at h
    obtain ⟨rfl, rfl⟩ := h
    have key : ∀ ts : List (Stmt E), (∀ t ∈ ts, t ∈ subs) → ∀ us, inlTL ts = some us → ∀ (w w' : World) sims,
        Tree.simulateAnd us d' c' w = .ok (sims, w') → ∃ sims', Tree.simulateAnd ts d' c' w = .ok (sims', w') ∧
        sims'.map Sim.commitment = sims.map Sim.commitment ∧ sims'.map Sim.responses = sims.map Sim.responses ∧
        sims'.map Sim.precommitment = simPreL ts := by
      intro ts
      induction ts with
      | nil =>
        intro _ us hus w w' sims h
        cases hus
        simp only [Tree.simulateAnd, pm_pure_iff, Prod.mk.injEq] at h
        obtain ⟨rfl, rfl⟩ := h
        exact ⟨[], rfl, rfl, rfl, rfl⟩
      | cons t ts iht =>
        intro hm us hus w w' sims h
        obtain ⟨u, us', g1, g2, rfl⟩ := inlTL_cons.mp hus
        simp only [Tree.simulateAnd] at h ⊢
        obtain ⟨s1, w1, h1, h⟩ := pm_bind.mp h
        obtain ⟨ss, w2, h2, h⟩ := pm_bind.mp h
        rw [pm_pure_iff, Prod.mk.injEq] at h
        obtain ⟨rfl, rfl⟩ := h
        obtain ⟨ss', i1, i2, i3, i4⟩ := iht (fun t ht => hm t (by simp [ht])) us' g2 _ _ _ h2
        refine ⟨{ s1 with precommitment := simPre t } :: ss', ?_, ?_, ?_, ?_⟩
        · rw [pm_bind_eq (ih t (hm t (by simp)) u g1 _ _ _ _ _ h1), pm_bind_eq i1]
          rfl
        · simp only [List.map_cons, i2]
        · simp only [List.map_cons, i3]
        · simp only [List.map_cons, i4, simPreL]
    obtain ⟨sims', i1, i2, i3, i4⟩ := key subs (fun t ht => ht) us hus _ _ _ h3
    rw [updateRandomizers_inl hcore, pm_bind_eq h1, pm_bind_eq h2, pm_bind_eq i1]
    simp only [pm_pure_iff, i2, i3, i4, simPre]

/-! ### Provers -/

theorem stmtOfL_nil_iff {ps : List (StmtProver E)} : PTree.stmtOfL ps = [] ↔ ps = [] := by
  cases ps <;> simp [PTree.stmtOfL]

/-- What the inlined prover inherits. -/
theorem inlP_of (F : Profile E) (q : Nat) (Z : ExtSpec E → Val E → Prop) (A : Sec → Prop) {σ : Store} :
    ∀ (p : StmtProver E) (X : Key → Int), X = valueOf → Honest (fun p _ => LeafHonest F q Z A σ p) σ p X →
    Good (LeafBuilt F q Z) (PTree.stmtOf p) → Settled (PTree.stmtOf p) →
    ∃ p', inlP p = some p' ∧ OrFreeP p' ∧ Tree.core (PTree.stmtOf p) = some (Tree.blank (PTree.stmtOf p')) ∧
      Primed (FitRep σ X) p' ∧ Honest (fun p _ => FitRep σ X p) σ p' X := by
  intro p
  induction p using PTree.ind with
  | leaf p =>
    intro X hX h _ hs
    subst hX
    cases h with
    | leaf _ _ h =>
    cases p with
    | dlrep p => exact ⟨.leaf p, rfl, .leaf p, rfl, .leaf p h.1.1, .leaf p _ h.1.1⟩
    | ext p =>
      obtain ⟨cp, k', h1, h2, h3, h4, h5, h6, h7⟩ := h
      refine ⟨cp, h1, ?_, ?_, ?_, ?_⟩
      · generalize ht : PTree.stmtOf (PTree.leaf (LeafProver.ext p) : StmtProver E) = t at hs
        have ht : (Tree.leaf (Leaf.ext p.stmt) : Stmt E) = t := ht
        cases hs with
        | rep s => cases ht
        | ext s k hk hf =>
          cases ht
          rw [h2] at hk; cases hk
          have hf := orFree_blank hf _ h5
          clear h3 h4 h5 h1 h2
          induction cp using PTree.ind with
          | leaf p => exact .leaf p
          | or s i st sub sims ih => simp only [PTree.stmtOf] at hf; cases hf
          | and s subs ih =>
            simp only [PTree.stmtOf] at hf
            cases hf with
            | all _ _ hf => exact .and s subs fun p hp => ih p hp (hf _ (mem_stmtOfL hp))
        | and b subs h => cases ht
      · simp [PTree.stmtOf, ProverOps.stmtOf, Tree.core, StmtView.core, h2, core_blank, h5]
      · exact primed_mono (fun q hq => hq.1) h3
      · exact honest_mono (fun q hq => hq.1) h4
  | or s i st sub sims ih =>
    intro X _ _ _ hs
    simp only [PTree.stmtOf] at hs
    cases hs
  | and s subs ih =>
    intro X hX h hg hs
    simp only [PTree.stmtOf] at hs hg
    cases h with
    | and _ _ _ h =>
    cases hs with
    | and _ _ hs =>
    cases hg with
    | and _ _ hne hg =>
    have key : ∀ ps : List (StmtProver E), (∀ p ∈ ps, p ∈ subs) → ∃ ps', inlPL ps = some ps' ∧
        (∀ p ∈ ps', OrFreeP p) ∧ Tree.coreL (PTree.stmtOfL ps) = some (Tree.blankL (PTree.stmtOfL ps')) ∧
        (∀ p ∈ ps', Primed (FitRep σ X) p) ∧ (∀ p ∈ ps', Honest (fun p _ => FitRep σ X p) σ p X) ∧
        ps'.length = ps.length := by
      intro ps
      induction ps with
      | nil => intro _; exact ⟨[], rfl, by simp, rfl, by simp, by simp, rfl⟩
      | cons p ps ihp =>
        intro hm
        have hp := hm p (by simp)
        obtain ⟨p', h1, h2, h3, h4, h5⟩ := ih p hp X hX (h p hp) (hg _ (mem_stmtOfL_stmt hp)) (hs _ (mem_stmtOfL_stmt hp))
        obtain ⟨ps', g1, g2, g3, g4, g5, g6⟩ := ihp fun p hp => hm p (by simp [hp])
        refine ⟨p' :: ps', inlPL_cons.mpr ⟨p', ps', h1, g1, rfl⟩, List.forall_mem_cons.mpr ⟨h2, g2⟩,
          Tree.coreL_cons.mpr ⟨_, _, h3, g3, rfl⟩, List.forall_mem_cons.mpr ⟨h4, g4⟩,
          List.forall_mem_cons.mpr ⟨h5, g5⟩, by simp [g6]⟩
    obtain ⟨ps', g1, g2, g3, g4, g5, g6⟩ := key subs fun p hp => hp
    refine ⟨.and s ps', by simp [inlP, g1], .and s ps' g2, by simp [PTree.stmtOf, Tree.core, g3, Tree.blank],
      .and s ps' ?_ g4, .and s ps' X g5⟩
    rintro rfl
    simp only [List.length_nil] at g6
    exact hne (stmtOfL_nil_iff.mpr (List.length_eq_zero_iff.mp g6.symm))

/-- Committing keeps the statement. -/
theorem commit_stmtOf {p : CoreProver E} (h : OrFreeP p) : ∀ (d : Option (Dict Int)) (w w' : World) (v : Val E)
    (p' : CoreProver E), PTree.internalCommit p d w = .ok ((v, p'), w') →
    PTree.stmtOf p' = PTree.stmtOf p ∧ OrFreeP p' := by
  induction h with
  | leaf p =>
    intro d w w' v p' h
    simp only [PTree.internalCommit] at h
    obtain ⟨⟨v1, p1⟩, w1, h1, h⟩ := pm_bind.mp h
    rw [pm_pure_iff, Prod.mk.injEq, Prod.mk.injEq] at h
    obtain ⟨⟨_, rfl⟩, _⟩ := h
    refine ⟨?_, .leaf _⟩
    simp only [ProverOps.internalCommit, DLRepProver.internalCommit] at h1
    obtain ⟨_, _, _, h1⟩ := pm_bind.mp h1
    rw [pm_getStore_bind] at h1
    obtain ⟨_, _, h1⟩ := pm_liftE_bind_iff.mp h1
    obtain ⟨_, _, h1⟩ := pm_liftE_bind_iff.mp h1
    rw [pm_pure_iff, Prod.mk.injEq, Prod.mk.injEq] at h1
    simp only [PTree.stmtOf, ProverOps.stmtOf, ← h1.1.2]
  | and s subs hs ih =>
    intro d w w' v p' h
    simp only [PTree.internalCommit] at h
    rw [pm_getStore_bind] at h
    obtain ⟨_, _, h⟩ := pm_liftE_bind_iff.mp h
    obtain ⟨d', w1, h1, h⟩ := pm_bind.mp h
    obtain ⟨⟨vs, ps⟩, w2, h2, h⟩ := pm_bind.mp h
    rw [pm_pure_iff, Prod.mk.injEq, Prod.mk.injEq] at h
    obtain ⟨⟨_, rfl⟩, _⟩ := h
    have key : ∀ (qs : List (CoreProver E)), (∀ p ∈ qs, p ∈ subs) → ∀ (w w' : World) vs ps,
        PTree.internalCommitL qs d' w = .ok ((vs, ps), w') → PTree.stmtOfL ps = PTree.stmtOfL qs ∧
        ∀ p ∈ ps, OrFreeP p := by
      intro qs
      induction qs with
      | nil =>
        intro _ w w' vs ps h
        simp only [PTree.internalCommitL, pm_pure_iff, Prod.mk.injEq] at h
        obtain ⟨⟨_, rfl⟩, _⟩ := h
        exact ⟨rfl, by simp⟩
      | cons p qs ihq =>
        intro hm w w' vs ps h
        simp only [PTree.internalCommitL] at h
        obtain ⟨⟨v1, p1⟩, w1, h1, h⟩ := pm_bind.mp h
        obtain ⟨⟨vs', ps'⟩, w2, h2, h⟩ := pm_bind.mp h
        rw [pm_pure_iff, Prod.mk.injEq, Prod.mk.injEq] at h
        obtain ⟨⟨_, rfl⟩, _⟩ := h
        obtain ⟨e1, e2⟩ := ih p (hm p (by simp)) _ _ _ _ _ h1
        obtain ⟨e3, e4⟩ := ihq (fun p hp => hm p (by simp [hp])) _ _ _ _ h2
        exact ⟨by simp only [PTree.stmtOfL, e1, e3], List.forall_mem_cons.mpr ⟨e2, e4⟩⟩
    obtain ⟨e1, e2⟩ := key subs (fun p hp => hp) _ _ _ _ h2
    exact ⟨by simp only [PTree.stmtOf, e1], .and s ps e2⟩

theorem reoccur_settled {t : Stmt E} (h : Settled t) (σ : Store) (fb : List Sec) : Tree.reoccur σ fb t = .ok () := by
  induction h with
  | rep s => rfl
  | ext s k hk hf => rfl
  | and b subs h ih =>
    simp only [Tree.reoccur]
    have key : ∀ ts : List (Stmt E), (∀ t ∈ ts, t ∈ subs) → Tree.reoccurL σ fb ts = .ok () := by
      intro ts
      induction ts with
      | nil => intro _; rfl
      | cons t ts iht =>
        intro hm
        simp only [Tree.reoccurL, ih t (hm t (by simp)), bind_ok]
        exact iht fun t ht => hm t (by simp [ht])
    exact key subs fun t ht => ht

theorem validate_inl {b b' : Bool} {ts : List (Stmt E)} {us : List (Core E)} {σ : Store}
    (hs : Settled (.and b ts)) (h : Tree.core (.and b ts : Stmt E) = some (Tree.blank (.and b' us)))
    (hv : Tree.validateComposition σ (.and b' us) = .ok ()) : Tree.validateComposition σ (.and b ts) = .ok () := by
  have h1 : Tree.secretVars (.and b ts : Stmt E) = Tree.secretVars (.and b' us) := by
    rw [Tree.core_vars _ _ h, ← Tree.core_vars (.and b' us : Core E) _ (core_blank _)]
  have h2 : Tree.bases (.and b ts : Stmt E) = Tree.bases (.and b' us) := by
    rw [Tree.core_bases _ _ h, ← Tree.core_bases (.and b' us : Core E) _ (core_blank _)]
  simp only [Tree.validateComposition] at hv ⊢
  obtain ⟨u, hv1, hv⟩ := bind_ok_iff.mp hv
  have hv2 : Tree.validateGroupOrders σ (.and b ts : Stmt E) = .ok () := by
    simp only [Tree.validateGroupOrders, h1, h2] at hv1 ⊢
    exact hv1
  rw [hv2, bind_ok]
  have h3 : Tree.secretVarsL ts = Tree.secretVarsL us := by simpa only [Tree.secretVars] using h1
  obtain ⟨fb, hv3, _⟩ := bind_ok_iff.mp hv
  rw [h3, hv3, bind_ok]
  have := reoccur_settled hs σ fb
  simpa only [Tree.reoccur] using this

/-- Committing with the inlined prover. -/
theorem commit_inl : ∀ (p : StmtProver E) (q : CoreProver E), inlP p = some q → OrFreeP q →
    Settled (PTree.stmtOf p) → Tree.core (PTree.stmtOf p) = some (Tree.blank (PTree.stmtOf q)) →
    ∀ (d : Option (Dict Int)) (w w' : World) (v : Val E)
    (q' : CoreProver E), PTree.internalCommit q d w = .ok ((v, q'), w') →
    ∃ p', PTree.internalCommit p d w = .ok ((v, p'), w') ∧ inlP p' = some q' := by
  intro p
  induction p using PTree.ind with
  | leaf p =>
    intro q hq hf hs _ d w w' v q' h
    cases p with
    | dlrep p =>
      simp only [inlP, Option.some.injEq] at hq
      subst hq
      simp only [PTree.internalCommit] at h
      obtain ⟨⟨v1, p1⟩, w1, h1, h⟩ := pm_bind.mp h
      have h1 : DLRepProver.internalCommit p d w = .ok ((v1, p1), w1) := h1
      rw [pm_pure_iff, Prod.mk.injEq, Prod.mk.injEq] at h
      obtain ⟨⟨rfl, rfl⟩, rfl⟩ := h
      refine ⟨.leaf (.dlrep p1), ?_, rfl⟩
      simp only [PTree.internalCommit, ProverOps.internalCommit, bind_assoc]
      rw [pm_bind_eq h1]
      rfl
    | ext p =>
      simp only [inlP] at hq
      generalize ht : PTree.stmtOf (PTree.leaf (LeafProver.ext p) : StmtProver E) = t at hs
      have ht : (Tree.leaf (Leaf.ext p.stmt) : Stmt E) = t := ht
      cases hs with
      | rep s => cases ht
      | and b subs h => cases ht
      | ext s k hk _ =>
        cases ht
        refine ⟨.leaf (.ext { p with constructed := some q' }), ?_, rfl⟩
        simp only [PTree.internalCommit, ProverOps.internalCommit, ExtProver.internalCommit, hk, hq, bind_assoc]
        rw [pm_bind_eq h]
        rfl
  | or s i st sub sims ih => intro q hq; simp [inlP] at hq
  | and s subs ih =>
    intro q hq hf hs hcore d w w' v q' h
    simp only [inlP, Option.map_eq_some_iff] at hq
    obtain ⟨qs, hqs, rfl⟩ := hq
    cases hf with
    | and _ _ hf =>
    have hs0 := hs
    simp only [PTree.stmtOf] at hs hcore
    simp only [PTree.internalCommit] at h ⊢
    rw [pm_getStore_bind] at h
    obtain ⟨u, hv, h⟩ := pm_liftE_bind_iff.mp h
    obtain ⟨d', w1, h1, h⟩ := pm_bind.mp h
    obtain ⟨⟨vs, qs'⟩, w2, h2, h⟩ := pm_bind.mp h
    rw [pm_pure_iff, Prod.mk.injEq, Prod.mk.injEq] at h
    obtain ⟨⟨rfl, rfl⟩, rfl⟩ := h
    rw [pm_getStore_bind, validate_inl hs hcore hv, pm_liftE_bind, updateRandomizers_inl hcore, pm_bind_eq h1]
    cases hs with
    | and _ _ hs =>
    simp only [Tree.core, Option.map_eq_some_iff, Tree.blank, Tree.and.injEq, true_and, exists_eq_right] at hcore
    have key : ∀ (ps : List (StmtProver E)), (∀ p ∈ ps, p ∈ subs) → ∀ (qs : List (CoreProver E)),
        inlPL ps = some qs → (∀ q ∈ qs, OrFreeP q) →
        Tree.coreL (PTree.stmtOfL ps) = some (Tree.blankL (PTree.stmtOfL qs)) → ∀ (w w' : World) vs qs',
        PTree.internalCommitL qs d' w = .ok ((vs, qs'), w') → ∃ ps', PTree.internalCommitL ps d' w = .ok ((vs, ps'), w') ∧
        inlPL ps' = some qs' := by
      intro ps
      induction ps with
      | nil =>
        intro _ qs hqs _ _ w w' vs qs' h
        cases hqs
        simp only [PTree.internalCommitL, pm_pure_iff, Prod.mk.injEq] at h
        obtain ⟨⟨rfl, rfl⟩, rfl⟩ := h
        exact ⟨[], rfl, rfl⟩
      | cons p ps ihp =>
        intro hm qs hqs hf hc w w' vs qs' h
        obtain ⟨q, qs1, g1, g2, rfl⟩ := inlPL_cons.mp hqs
        simp only [PTree.internalCommitL] at h ⊢
        obtain ⟨⟨v1, q1⟩, w1, h1, h⟩ := pm_bind.mp h
        obtain ⟨⟨vs', qs2⟩, w2, h2, h⟩ := pm_bind.mp h
        rw [pm_pure_iff, Prod.mk.injEq, Prod.mk.injEq] at h
        obtain ⟨⟨rfl, rfl⟩, rfl⟩ := h
        simp only [PTree.stmtOfL] at hc
        obtain ⟨k, ks, c1, c2, c3⟩ := Tree.coreL_cons.mp hc
        simp only [Tree.blankL, List.cons.injEq] at c3
        obtain ⟨c3, c4⟩ := c3
        have hp := hm p (by simp)
        obtain ⟨p', i1, i2⟩ := ih p hp q g1 (hf q (by simp)) (hs _ (mem_stmtOfL_stmt hp)) (by rw [c1, c3]) _ _ _ _ _ h1
        obtain ⟨ps', i3, i4⟩ := ihp (fun p hp => hm p (by simp [hp])) qs1 g2 (fun q hq => hf q (by simp [hq]))
          (by rw [c2, c4]) _ _ _ _ h2
        refine ⟨p' :: ps', ?_, inlPL_cons.mpr ⟨q1, qs2, i2, i4, rfl⟩⟩
        rw [pm_bind_eq i1, pm_bind_eq i3]
        rfl
    obtain ⟨ps', i1, i2⟩ := key subs (fun p hp => hp) qs hqs hf hcore _ _ _ _ h2
    refine ⟨.and s ps', ?_, by simp [inlP, i2]⟩
    rw [pm_bind_eq i1]
    rfl

/-- Responses of the inlined prover. -/
theorem response_inl : ∀ (p : StmtProver E) (q : CoreProver E), inlP p = some q → ∀ (c : Int) (w w' : World) (r : Val E),
    PTree.computeResponse q c w = .ok (r, w') → PTree.computeResponse p c w = .ok (r, w') := by
  intro p
  induction p using PTree.ind with
  | leaf p =>
    intro q hq c w w' r h
    cases p with
    | dlrep p =>
      simp only [inlP, Option.some.injEq] at hq
      subst hq
      exact h
    | ext p =>
      simp only [inlP] at hq
      simp only [PTree.computeResponse, ProverOps.computeResponse, ExtProver.computeResponse, hq]
      exact h
  | or s i st sub sims ih => intro q hq; simp [inlP] at hq
  | and s subs ih =>
    intro q hq c w w' r h
    simp only [inlP, Option.map_eq_some_iff] at hq
    obtain ⟨qs, hqs, rfl⟩ := hq
    simp only [PTree.computeResponse] at h ⊢
    obtain ⟨rs, w1, h1, h⟩ := pm_bind.mp h
    have key : ∀ (ps : List (StmtProver E)), (∀ p ∈ ps, p ∈ subs) → ∀ (qs : List (CoreProver E)),
        inlPL ps = some qs → ∀ (w w' : World) rs,
        PTree.computeResponseL qs c w = .ok (rs, w') → PTree.computeResponseL ps c w = .ok (rs, w') := by
      intro ps
      induction ps with
      | nil => intro _ qs hqs w w' rs h; cases hqs; exact h
      | cons p ps ihp =>
        intro hm qs hqs w w' rs h
        obtain ⟨q, qs1, g1, g2, rfl⟩ := inlPL_cons.mp hqs
        simp only [PTree.computeResponseL] at h ⊢
        obtain ⟨r, w1, h1, h⟩ := pm_bind.mp h
        obtain ⟨rs', w2, h2, h⟩ := pm_bind.mp h
        rw [pm_bind_eq (ih p (hm p (by simp)) q g1 _ _ _ _ h1),
          pm_bind_eq (ihp (fun p hp => hm p (by simp [hp])) qs1 g2 _ _ _ h2)]
        exact h
    rw [pm_bind_eq (key subs (fun p hp => hp) qs hqs _ _ _ h1)]
    exact h

end Zksk
