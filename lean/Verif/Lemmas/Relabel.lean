import Verif.SpecNested
import Verif.Lemmas.Again

/-! # Statements whose leaves are replaced by leaves that behave the same -/

set_option linter.unusedSectionVars false

namespace Zksk

variable {E : Type} [AddCommGroup E] [DecidableEq E]

open Spec

section
variable {L L' : Type} [StmtOps E L] [StmtOps E L']

/-- The replaced leaf behaves as the leaf. -/
structure Hom (f : L → L') : Prop where
  secretVars : ∀ l, StmtOps.secretVars (E := E) (f l) = StmtOps.secretVars l
  bases : ∀ l, StmtOps.bases (E := E) (f l) = StmtOps.bases l
  simulated : ∀ l, StmtOps.simulated (E := E) (f l) = StmtOps.simulated l
  setSimulated : ∀ v l, StmtOps.setSimulated v (f l) = f (StmtOps.setSimulated v l)
  proofId : ∀ σ m l, StmtOps.proofId σ m (f l) = StmtOps.proofId σ m l
  freshVerifier : ∀ l, StmtOps.freshVerifier (f l) = f (StmtOps.freshVerifier l)
  process : ∀ σ l v, StmtOps.process σ (f l) v = (StmtOps.process σ l v).map f
  fullValidate : ∀ l, StmtOps.fullValidate (E := E) (f l) = StmtOps.fullValidate l
  consistency : ∀ σ l r d, StmtOps.consistency σ (f l) r d = StmtOps.consistency σ l r d
  recompute : ∀ l c r, StmtOps.recompute (f l) c r = StmtOps.recompute l c r
  prepareSim : ∀ l, StmtOps.prepareSim (f l) = f <$> StmtOps.prepareSim l
  simulate : ∀ l d c, StmtOps.simulate (f l) d c = StmtOps.simulate l d c

variable {f : L → L'}

theorem relabelL_eq (ts : List (Tree L)) : relabelL f ts = ts.map (relabel f) := by
  induction ts with
  | nil => rfl
  | cons t ts ih => simp only [relabelL, List.map_cons, ih]

theorem relabel_simulated (hf : Hom (E := E) f) : ∀ t : Tree L, (relabel f t).simulated = t.simulated
  | .leaf l => hf.simulated l
  | .and _ _ => rfl
  | .or _ _ => rfl

theorem relabel_setSimulated (hf : Hom (E := E) f) (v : Bool) : ∀ t : Tree L,
    (relabel f t).setSimulated v = relabel f (t.setSimulated v)
  | .leaf l => by simp only [relabel, Tree.setSimulated, hf.setSimulated]
  | .and _ _ => rfl
  | .or _ _ => rfl

mutual
theorem relabel_secretVars (hf : Hom (E := E) f) : ∀ t : Tree L, Tree.secretVars (relabel f t) = Tree.secretVars t
  | .leaf l => hf.secretVars l
  | .and s subs => by simp only [relabel, Tree.secretVars]; exact relabel_secretVarsL hf subs
  | .or s subs => by simp only [relabel, Tree.secretVars]; exact relabel_secretVarsL hf subs
theorem relabel_secretVarsL (hf : Hom (E := E) f) : ∀ ts : List (Tree L),
    Tree.secretVarsL (relabelL f ts) = Tree.secretVarsL ts
  | [] => rfl
  | t :: ts => by simp only [relabelL, Tree.secretVarsL, relabel_secretVars hf t, relabel_secretVarsL hf ts]
end

mutual
theorem relabel_bases (hf : Hom (E := E) f) : ∀ t : Tree L, Tree.bases (relabel f t) = Tree.bases t
  | .leaf l => hf.bases l
  | .and s subs => by simp only [relabel, Tree.bases]; exact relabel_basesL hf subs
  | .or s subs => by simp only [relabel, Tree.bases]; exact relabel_basesL hf subs
theorem relabel_basesL (hf : Hom (E := E) f) : ∀ ts : List (Tree L), Tree.basesL (relabelL f ts) = Tree.basesL ts
  | [] => rfl
  | t :: ts => by simp only [relabelL, Tree.basesL, relabel_bases hf t, relabel_basesL hf ts]
end

mutual
theorem relabel_proofIdWith (hf : Hom (E := E) f) (σ : Store) (m : IdMap) : ∀ t : Tree L,
    Tree.proofIdWith σ m (relabel f t) = Tree.proofIdWith σ m t
  | .leaf l => hf.proofId σ m l
  | .and s subs => by simp only [relabel, Tree.proofIdWith, relabel_proofIdWithL hf σ m subs]
  | .or s subs => by simp only [relabel, Tree.proofIdWith, relabel_proofIdWithL hf σ m subs]
theorem relabel_proofIdWithL (hf : Hom (E := E) f) (σ : Store) (m : IdMap) : ∀ ts : List (Tree L),
    Tree.proofIdWithL σ m (relabelL f ts) = Tree.proofIdWithL σ m ts
  | [] => rfl
  | t :: ts => by
    simp only [relabelL, Tree.proofIdWithL, relabel_proofIdWith hf σ m t, relabel_proofIdWithL hf σ m ts]
end

theorem relabel_proofId (hf : Hom (E := E) f) (σ : Store) (t : Tree L) :
    Tree.proofId σ (relabel f t) = Tree.proofId σ t := by
  simp only [Tree.proofId, relabel_secretVars hf, relabel_proofIdWith hf]

mutual
theorem relabel_freshVerifier (hf : Hom (E := E) f) : ∀ t : Tree L,
    Tree.freshVerifier (relabel f t) = relabel f (Tree.freshVerifier t)
  | .leaf l => by simp only [relabel, Tree.freshVerifier, hf.freshVerifier]
  | .and s subs => by simp only [relabel, Tree.freshVerifier, relabel_freshVerifierL hf subs]
  | .or s subs => by simp only [relabel, Tree.freshVerifier, relabel_freshVerifierL hf subs]
theorem relabel_freshVerifierL (hf : Hom (E := E) f) : ∀ ts : List (Tree L),
    Tree.freshVerifierL (relabelL f ts) = relabelL f (Tree.freshVerifierL ts)
  | [] => rfl
  | t :: ts => by
    simp only [relabelL, Tree.freshVerifierL, relabel_freshVerifier hf t, relabel_freshVerifierL hf ts]
end

mutual
theorem relabel_process (hf : Hom (E := E) f) (σ : Store) : ∀ (t : Tree L) (v : Val E),
    Tree.process σ (relabel f t) v = (Tree.process σ t v).map (relabel f)
  | .leaf l, v => by
    simp only [relabel, Tree.process, hf.process]
    cases StmtOps.process σ l v <;> rfl
  | .and s subs, v => by
    simp only [relabel, Tree.process, relabel_processL hf σ subs 0 v]
    split
    · rfl
    · cases Tree.processL σ subs 0 v <;> rfl
  | .or s subs, v => by
    simp only [relabel, Tree.process, relabel_processL hf σ subs 0 v]
    split
    · rfl
    · cases Tree.processL σ subs 0 v <;> rfl
theorem relabel_processL (hf : Hom (E := E) f) (σ : Store) : ∀ (ts : List (Tree L)) (i : Nat) (v : Val E),
    Tree.processL σ (relabelL f ts) i v = (Tree.processL σ ts i v).map (relabelL f)
  | [], _, _ => rfl
  | t :: ts, i, v => by
    simp only [relabelL, Tree.processL, relabel_processL hf σ ts]
    cases v.index i with
    | error e => rfl
    | ok vi =>
      simp only [bind, Except.bind, relabel_process hf σ t vi]
      cases Tree.process σ t vi with
      | error e => rfl
      | ok t' => simp only [Except.map]; cases Tree.processL σ ts (i + 1) v <;> rfl
end

mutual
theorem relabel_fullValidate (hf : Hom (E := E) f) : ∀ t : Tree L,
    Tree.fullValidate (relabel f t) = Tree.fullValidate t
  | .leaf l => hf.fullValidate l
  | .and s subs => by simp only [relabel, Tree.fullValidate]; exact relabel_fullValidateL hf subs
  | .or s subs => by simp only [relabel, Tree.fullValidate]; exact relabel_fullValidateL hf subs
theorem relabel_fullValidateL (hf : Hom (E := E) f) : ∀ ts : List (Tree L),
    Tree.fullValidateL (relabelL f ts) = Tree.fullValidateL ts
  | [] => rfl
  | t :: ts => by
    simp only [relabelL, Tree.fullValidateL, relabel_fullValidate hf t, relabel_fullValidateL hf ts]
end

mutual
theorem relabel_consistency (hf : Hom (E := E) f) (σ : Store) : ∀ (t : Tree L) (r : Val E) (d : Dict (Val E)),
    Tree.consistency σ (relabel f t) r d = Tree.consistency σ t r d
  | .leaf l, r, d => hf.consistency σ l r d
  | .and s subs, r, d => by
    simp only [relabel, Tree.consistency]; exact relabel_consistencyAnd hf σ subs 0 r d
  | .or s subs, r, d => by
    simp only [relabel, Tree.consistency, relabel_consistencyOr hf σ subs 0 r]
theorem relabel_consistencyAnd (hf : Hom (E := E) f) (σ : Store) : ∀ (ts : List (Tree L)) (i : Nat) (r : Val E)
    (d : Dict (Val E)), Tree.consistencyAnd σ (relabelL f ts) i r d = Tree.consistencyAnd σ ts i r d
  | [], _, _, _ => rfl
  | t :: ts, i, r, d => by
    simp only [relabelL, Tree.consistencyAnd, relabel_consistency hf σ t, relabel_consistencyAnd hf σ ts]
theorem relabel_consistencyOr (hf : Hom (E := E) f) (σ : Store) : ∀ (ts : List (Tree L)) (i : Nat) (r : Val E),
    Tree.consistencyOr σ (relabelL f ts) i r = Tree.consistencyOr σ ts i r
  | [], _, _ => rfl
  | t :: ts, i, r => by
    simp only [relabelL, Tree.consistencyOr, relabel_consistency hf σ t, relabel_consistencyOr hf σ ts]
end

mutual
theorem relabel_recompute (hf : Hom (E := E) f) : ∀ (t : Tree L) (c : Int) (r : Val E),
    Tree.recompute (relabel f t) c r = Tree.recompute t c r
  | .leaf l, c, r => hf.recompute l c r
  | .and s subs, c, r => by simp only [relabel, Tree.recompute, relabel_recomputeAnd hf subs 0 c r]
  | .or s subs, c, r => by simp only [relabel, Tree.recompute, relabel_recomputeOr hf subs]
theorem relabel_recomputeAnd (hf : Hom (E := E) f) : ∀ (ts : List (Tree L)) (i : Nat) (c : Int) (r : Val E),
    Tree.recomputeAnd (relabelL f ts) i c r = Tree.recomputeAnd ts i c r
  | [], _, _, _ => rfl
  | t :: ts, i, c, r => by
    simp only [relabelL, Tree.recomputeAnd, relabel_recompute hf t, relabel_recomputeAnd hf ts]
theorem relabel_recomputeOr (hf : Hom (E := E) f) : ∀ (ts : List (Tree L)) (i : Nat) (cs : List Int) (r : Val E),
    Tree.recomputeOr (relabelL f ts) i cs r = Tree.recomputeOr ts i cs r
  | [], _, _, _ => rfl
  | t :: ts, i, cs, r => by
    simp only [relabelL, Tree.recomputeOr, relabel_recompute hf t, relabel_recomputeOr hf ts]
end

theorem relabel_verifyResponse (hf : Hom (E := E) f) (σ : Store) (t : Tree L) (com : Val E) (c : Int) (r : Val E) :
    verifyResponse σ (relabel f t) com c r = verifyResponse σ t com c r := by
  simp only [verifyResponse, preVerification, relabel_fullValidate hf, relabel_consistency hf, relabel_recompute hf]

theorem relabel_digest (hf : Hom (E := E) f) (σ : Store) (t : Tree L) (v : Val E) :
    digestPrecommitment σ (relabel f t) v = (digestPrecommitment σ t v).map (relabel f) := by
  simp only [digestPrecommitment]
  split
  · rfl
  · exact relabel_process hf σ t v

theorem relabel_verify (hf : Hom (E := E) f) (env : Env E) (σ : Store) (t : Tree L) (nizk : NIZK E) (message : String) :
    verify env σ (relabel f t) nizk message = verify env σ t nizk message := by
  simp only [verify, relabel_freshVerifier hf, relabel_digest hf]
  cases digestPrecommitment σ (Tree.freshVerifier t) nizk.precommitment with
  | error e => rfl
  | ok t1 =>
    simp only [Except.map, bind, Except.bind, checkStatement, preVerification, relabel_proofId hf,
      relabel_fullValidate hf, relabel_consistency hf, relabel_recompute hf]

/-! ### Checks of provers and simulations -/

mutual
theorem relabel_reoccur (hf : Hom (E := E) f) (σ : Store) (fb : List Sec) : ∀ t : Tree L,
    Tree.reoccur σ fb (relabel f t) = Tree.reoccur σ fb t
  | .leaf l => rfl
  | .and s subs => by simp only [relabel, Tree.reoccur]; exact relabel_reoccurL hf σ fb subs
  | .or s subs => by simp only [relabel, Tree.reoccur, relabel_secretVarsL hf]
theorem relabel_reoccurL (hf : Hom (E := E) f) (σ : Store) (fb : List Sec) : ∀ ts : List (Tree L),
    Tree.reoccurL σ fb (relabelL f ts) = Tree.reoccurL σ fb ts
  | [] => rfl
  | t :: ts => by simp only [relabelL, Tree.reoccurL, relabel_reoccur hf σ fb t, relabel_reoccurL hf σ fb ts]
end

theorem relabel_validateComposition (hf : Hom (E := E) f) (σ : Store) : ∀ t : Tree L,
    Tree.validateComposition σ (relabel f t) = Tree.validateComposition σ t
  | .leaf l => rfl
  | .and s subs => by
    simp only [relabel, Tree.validateComposition, Tree.validateGroupOrders, Tree.bases, Tree.secretVars,
      relabel_secretVarsL hf, relabel_basesL hf, relabel_reoccurL hf]
  | .or s subs => by
    simp only [relabel, Tree.validateComposition, Tree.validateGroupOrders, Tree.bases, Tree.secretVars,
      relabel_secretVarsL hf, relabel_basesL hf]

theorem relabel_updateRandomizers (hf : Hom (E := E) f) (t : Tree L) (d : Option (Dict Int)) :
    Tree.updateRandomizers (relabel f t) d = Tree.updateRandomizers t d := by
  simp only [Tree.updateRandomizers, Tree.getRandomizers, relabel_secretVars hf, relabel_bases hf]

mutual
theorem relabel_prepareSim (hf : Hom (E := E) f) : ∀ t : Tree L,
    Tree.prepareSim (relabel f t) = relabel f <$> Tree.prepareSim t
  | .leaf l => by
    simp only [relabel, Tree.prepareSim, hf.prepareSim, map_eq_pure_bind, bind_assoc, pure_bind]
  | .and s subs => by
    simp only [relabel, Tree.prepareSim, relabel_prepareSimL hf subs, map_eq_pure_bind, bind_assoc, pure_bind]
  | .or s subs => by
    simp only [relabel, Tree.prepareSim, relabel_prepareSimL hf subs, map_eq_pure_bind, bind_assoc, pure_bind]
theorem relabel_prepareSimL (hf : Hom (E := E) f) : ∀ ts : List (Tree L),
    Tree.prepareSimL (relabelL f ts) = relabelL f <$> Tree.prepareSimL ts
  | [] => by simp only [relabelL, Tree.prepareSimL, map_eq_pure_bind, pure_bind]
  | t :: ts => by
    simp only [relabelL, Tree.prepareSimL, relabel_prepareSim hf t, relabel_prepareSimL hf ts, map_eq_pure_bind,
      bind_assoc, pure_bind]
end

mutual
theorem relabel_simulate (hf : Hom (E := E) f) : ∀ (t : Tree L) (d : Option (Dict Int)) (c : Option Int),
    Tree.simulate (relabel f t) d c = Tree.simulate t d c
  | .leaf l, d, c => hf.simulate l d c
  | .and s subs, d, c => by
    have h := relabel_updateRandomizers hf (.and s subs) d
    simp only [relabel] at h
    simp only [relabel, Tree.simulate, h, relabel_simulateAnd hf subs]
  | .or s subs, d, c => by
    simp only [relabel, Tree.simulate, relabel_simulateOr hf subs]
theorem relabel_simulateAnd (hf : Hom (E := E) f) : ∀ (ts : List (Tree L)) (d : Dict Int) (c : Int),
    Tree.simulateAnd (relabelL f ts) d c = Tree.simulateAnd ts d c
  | [], _, _ => rfl
  | t :: ts, d, c => by
    simp only [relabelL, Tree.simulateAnd, relabel_simulate hf t, relabel_simulateAnd hf ts]
theorem relabel_simulateOr (hf : Hom (E := E) f) : ∀ (ts : List (Tree L)) (c : Int) (acc : List Int),
    Tree.simulateOr (relabelL f ts) c acc = Tree.simulateOr ts c acc
  | [], _, _ => rfl
  | [t], c, acc => by
    simp only [relabelL, Tree.simulateOr, relabel_simulate hf t]
  | t :: u :: ts, c, acc => by
    have h := relabel_simulateOr hf (u :: ts)
    simp only [relabelL] at h
    simp only [relabelL, Tree.simulateOr, relabel_simulate hf t, h]
end

/-! ### Provers -/

variable {P P' : Type} [ProverOps E L P] [ProverOps E L' P']

/-- The prover of the replaced leaf behaves as the prover of the leaf. -/
structure ProverHom (f : L → L') (g : P → P') : Prop where
  stmtOf : ∀ p, ProverOps.stmtOf (E := E) (g p) = f (ProverOps.stmtOf p)
  getProver : ∀ l d, (ProverOps.getProver (E := E) (f l) d : PM (Option P' × L')) =
    (fun x : Option P × L => (x.1.map g, f x.2)) <$> (ProverOps.getProver l d : PM (Option P × L))
  precommit : ∀ p, ProverOps.precommit (g p) = (fun x => (x.1, g x.2)) <$> ProverOps.precommit p
  internalCommit : ∀ p d, ProverOps.internalCommit (g p) d = (fun x => (x.1, g x.2)) <$> ProverOps.internalCommit p d
  computeResponse : ∀ p c, ProverOps.computeResponse (E := E) (g p) c = ProverOps.computeResponse p c

variable {g : P → P'}

theorem relabelL_length (ts : List (Tree L)) : (relabelL f ts).length = ts.length := by
  rw [relabelL_eq, List.length_map]

theorem relabelL_set (ts : List (Tree L)) (i : Nat) (t : Tree L) :
    (relabelL f ts).set i (relabel f t) = relabelL f (ts.set i t) := by
  rw [relabelL_eq, relabelL_eq, List.map_set]

mutual
theorem relabel_stmtOf (hg : ProverHom (E := E) f g) : ∀ p : PTree E L P,
    PTree.stmtOf (relabelP f g p) = relabel f (PTree.stmtOf p)
  | .leaf p => by simp only [relabelP, PTree.stmtOf, hg.stmtOf, relabel]
  | .and s subs => by simp only [relabelP, PTree.stmtOf, relabel_stmtOfL hg subs, relabel]
  | .or s i stmts sub sims => by simp only [relabelP, PTree.stmtOf, relabel_stmtOf hg sub, relabelL_set, relabel]
theorem relabel_stmtOfL (hg : ProverHom (E := E) f g) : ∀ ps : List (PTree E L P),
    PTree.stmtOfL (relabelPL f g ps) = relabelL f (PTree.stmtOfL ps)
  | [] => rfl
  | p :: ps => by simp only [relabelPL, PTree.stmtOfL, relabel_stmtOf hg p, relabel_stmtOfL hg ps, relabelL]
end

mutual
theorem relabel_precommit (hg : ProverHom (E := E) f g) : ∀ p : PTree E L P,
    PTree.precommit (relabelP f g p) = (fun x => (x.1, relabelP f g x.2)) <$> PTree.precommit p
  | .leaf p => by
    simp only [relabelP, PTree.precommit, hg.precommit, map_eq_pure_bind, bind_assoc, pure_bind]
  | .and s subs => by
    simp only [relabelP, PTree.precommit, relabel_precommitL hg subs, map_eq_pure_bind, bind_assoc, pure_bind]
  | .or s i stmts sub sims => by
    simp only [relabelP, PTree.precommit, relabel_precommit hg sub, map_eq_pure_bind, bind_assoc, pure_bind,
      relabelL_length]
theorem relabel_precommitL (hg : ProverHom (E := E) f g) : ∀ ps : List (PTree E L P),
    PTree.precommitL (relabelPL f g ps) = (fun x => (x.1, relabelPL f g x.2)) <$> PTree.precommitL ps
  | [] => by simp only [relabelPL, PTree.precommitL, map_eq_pure_bind, pure_bind]
  | p :: ps => by
    simp only [relabelPL, PTree.precommitL, relabel_precommit hg p, relabel_precommitL hg ps, map_eq_pure_bind,
      bind_assoc, pure_bind]
end

mutual
theorem relabel_internalCommit (hf : Hom (E := E) f) (hg : ProverHom (E := E) f g) : ∀ (p : PTree E L P)
    (d : Option (Dict Int)),
    PTree.internalCommit (relabelP f g p) d = (fun x => (x.1, relabelP f g x.2)) <$> PTree.internalCommit p d
  | .leaf p, d => by
    simp only [relabelP, PTree.internalCommit, hg.internalCommit, map_eq_pure_bind, bind_assoc, pure_bind]
  | .and s subs, d => by
    have h1 := fun σ => relabel_validateComposition hf σ (.and s (PTree.stmtOfL subs))
    have h2 := fun d => relabel_updateRandomizers hf (.and s (PTree.stmtOfL subs)) d
    simp only [relabel] at h1 h2
    simp only [relabelP, PTree.internalCommit, relabel_stmtOfL hg, h1, h2, relabel_internalCommitL hf hg subs,
      map_eq_pure_bind, bind_assoc, pure_bind]
  | .or s i stmts sub sims, d => by
    have h1 := fun σ => relabel_validateComposition hf σ (.or s (stmts.set i (PTree.stmtOf sub)))
    simp only [relabel] at h1
    simp only [relabelP, PTree.internalCommit, relabel_stmtOf hg, relabelL_set, h1, relabel_internalCommit hf hg sub,
      map_eq_pure_bind, bind_assoc, pure_bind, relabelL_length]
theorem relabel_internalCommitL (hf : Hom (E := E) f) (hg : ProverHom (E := E) f g) : ∀ (ps : List (PTree E L P))
    (d : Dict Int),
    PTree.internalCommitL (relabelPL f g ps) d = (fun x => (x.1, relabelPL f g x.2)) <$> PTree.internalCommitL ps d
  | [], d => by simp only [relabelPL, PTree.internalCommitL, map_eq_pure_bind, pure_bind]
  | p :: ps, d => by
    simp only [relabelPL, PTree.internalCommitL, relabel_internalCommit hf hg p, relabel_internalCommitL hf hg ps,
      map_eq_pure_bind, bind_assoc, pure_bind]
end

mutual
theorem relabel_computeResponse (hg : ProverHom (E := E) f g) : ∀ (p : PTree E L P) (c : Int),
    PTree.computeResponse (relabelP f g p) c = PTree.computeResponse p c
  | .leaf p, c => by simp only [relabelP, PTree.computeResponse, hg.computeResponse]
  | .and s subs, c => by simp only [relabelP, PTree.computeResponse, relabel_computeResponseL hg subs]
  | .or s i stmts sub sims, c => by
    simp only [relabelP, PTree.computeResponse, relabel_computeResponse hg sub, relabelL_length]
theorem relabel_computeResponseL (hg : ProverHom (E := E) f g) : ∀ (ps : List (PTree E L P)) (c : Int),
    PTree.computeResponseL (relabelPL f g ps) c = PTree.computeResponseL ps c
  | [], c => rfl
  | p :: ps, c => by
    simp only [relabelPL, PTree.computeResponseL, relabel_computeResponse hg p, relabel_computeResponseL hg ps]
end

theorem relabel_setup (hf : Hom (E := E) f) (i : Nat) : ∀ (ts : List (Tree L)) (k : Nat),
    PTree.setupSimulations i (relabelL f ts) k =
      (fun x => (relabelL f x.1, x.2)) <$> PTree.setupSimulations i ts k
  | [], k => by simp only [relabelL, PTree.setupSimulations, map_eq_pure_bind, pure_bind]
  | t :: ts, k => by
    simp only [relabelL, PTree.setupSimulations]
    split
    · simp only [relabel_setup hf i ts, map_eq_pure_bind, bind_assoc, pure_bind, relabelL]
    · simp only [relabel_setup hf i ts, relabel_prepareSim hf, relabel_simulate hf, map_eq_pure_bind, bind_assoc,
        pure_bind, relabelL]

theorem relabel_candidates (hf : Hom (E := E) f) : ∀ (ts : List (Tree L)) (i : Nat),
    PTree.candidates (relabelL f ts) i = PTree.candidates ts i
  | [], _ => rfl
  | t :: ts, i => by simp only [relabelL, PTree.candidates, relabel_simulated hf, relabel_candidates hf ts]

theorem relabel_allSome : ∀ ps : List (Option (PTree E L P)),
    PTree.allSome (ps.map (Option.map (relabelP f g))) = (PTree.allSome ps).map (relabelPL f g)
  | [] => rfl
  | none :: ps => rfl
  | some p :: ps => by
    simp only [List.map_cons, Option.map_some, PTree.allSome, relabel_allSome ps]
    cases PTree.allSome ps <;> rfl

/-- The result of `get_prover` with replaced leaves. -/
def relabelR (f : L → L') (g : P → P') (x : Option (PTree E L P) × Tree L) : Option (PTree E L' P') × Tree L' :=
  (x.1.map (relabelP f g), relabel f x.2)

theorem relabel_orLoop (f : L → L') (g : P → P') (acts : List (PM (Option (PTree E L P) × Tree L))) :
    ∀ (fuel : Nat) (possible : List Nat) (ts : List (Tree L)),
    PTree.orLoop (acts.map (fun a => relabelR f g <$> a)) fuel possible (relabelL f ts) =
      (fun x => (x.1.map (fun y => (y.1, relabelP f g y.2)), relabelL f x.2)) <$> PTree.orLoop acts fuel possible ts
  | 0, _, ts => by simp only [PTree.orLoop, map_eq_pure_bind, pure_bind]; rfl
  | fuel + 1, possible, ts => by
    simp only [PTree.orLoop]
    split
    · simp only [map_eq_pure_bind, pure_bind]; rfl
    · simp only [map_eq_pure_bind, bind_assoc]
      refine bind_congr fun i => ?_
      rw [List.getElem?_map]
      cases acts[i]? with
      | none => rfl
      | some act =>
        simp only [Option.map_some, map_eq_pure_bind, bind_assoc, pure_bind]
        refine bind_congr fun x => ?_
        obtain ⟨p?, t'⟩ := x
        cases p? with
        | some p => simp only [relabelR, Option.map_some, relabelL_set, pure_bind]
        | none =>
          simp only [relabelR, Option.map_none, relabelL_set]
          have h := relabel_orLoop f g acts fuel (possible.erase i) (ts.set i t')
          simp only [map_eq_pure_bind] at h
          exact h

mutual
theorem relabel_getProver (hf : Hom (E := E) f) (hg : ProverHom (E := E) f g) : ∀ (t : Tree L) (d : Dict Int),
    (PTree.getProver (relabel f t) d : PM (Option (PTree E L' P') × Tree L')) =
      relabelR f g <$> (PTree.getProver t d : PM (Option (PTree E L P) × Tree L))
  | .leaf l, d => by
    simp only [relabel, PTree.getProver, hg.getProver, map_eq_pure_bind, bind_assoc, pure_bind]
    refine bind_congr fun x => ?_
    obtain ⟨p?, l'⟩ := x
    cases p? <;> rfl
  | .and s subs, d => by
    simp only [relabel, PTree.getProver, map_eq_pure_bind, bind_assoc]
    refine bind_congr fun σ => bind_congr fun _ => ?_
    split
    · simp only [pure_bind]; rfl
    · rw [relabel_getProverL hf hg subs d]
      simp only [map_eq_pure_bind, bind_assoc, pure_bind]
      refine bind_congr fun x => ?_
      obtain ⟨ps, ts⟩ := x
      simp only [relabel_allSome]
      cases PTree.allSome ps with
      | none => rfl
      | some ps' => rfl
  | .or s subs, d => by
    simp only [relabel, PTree.getProver, map_eq_pure_bind, bind_assoc]
    refine bind_congr fun σ => bind_congr fun _ => ?_
    split
    · simp only [pure_bind]; rfl
    · rw [relabel_getProverActs hf hg subs d, relabel_candidates hf, relabel_orLoop]
      simp only [map_eq_pure_bind, bind_assoc, pure_bind]
      refine bind_congr fun x => ?_
      obtain ⟨r, ts⟩ := x
      cases r with
      | none => rfl
      | some ip =>
        obtain ⟨i, p⟩ := ip
        simp only [Option.map_some, relabel_setup hf, map_eq_pure_bind, bind_assoc, pure_bind]
        rfl
theorem relabel_getProverL (hf : Hom (E := E) f) (hg : ProverHom (E := E) f g) : ∀ (ts : List (Tree L)) (d : Dict Int),
    (PTree.getProverL (relabelL f ts) d : PM (List (Option (PTree E L' P')) × List (Tree L'))) =
      (fun x => (x.1.map (Option.map (relabelP f g)), relabelL f x.2)) <$>
        (PTree.getProverL ts d : PM (List (Option (PTree E L P)) × List (Tree L)))
  | [], d => by simp only [relabelL, PTree.getProverL, map_eq_pure_bind, pure_bind]; rfl
  | t :: ts, d => by
    simp only [relabelL, PTree.getProverL, relabel_getProver hf hg t, relabel_getProverL hf hg ts, map_eq_pure_bind,
      bind_assoc, pure_bind]
    rfl
theorem relabel_getProverActs (hf : Hom (E := E) f) (hg : ProverHom (E := E) f g) : ∀ (ts : List (Tree L)) (d : Dict Int),
    (PTree.getProverActs (relabelL f ts) d : List (PM (Option (PTree E L' P') × Tree L'))) =
      (PTree.getProverActs ts d : List (PM (Option (PTree E L P) × Tree L))).map (fun a => relabelR f g <$> a)
  | [], d => rfl
  | t :: ts, d => by
    simp only [relabelL, PTree.getProverActs, relabel_getProver hf hg t, relabel_getProverActs hf hg ts, List.map_cons]
end

theorem relabel_getNizkProof (hf : Hom (E := E) f) (hg : ProverHom (E := E) f g) (env : Env E) (p : PTree E L P)
    (message : String) : PTree.getNizkProof env (relabelP f g p) message =
      (fun x => (x.1, relabelP f g x.2)) <$> PTree.getNizkProof env p message := by
  simp only [PTree.getNizkProof, relabel_precommit hg, relabel_internalCommit hf hg, relabel_stmtOf hg, relabel_proofId hf,
    relabel_computeResponse hg, map_eq_pure_bind, bind_assoc, pure_bind]

theorem relabel_prove (hf : Hom (E := E) f) (hg : ProverHom (E := E) f g) (env : Env E) (t : Tree L) (d : Dict Int)
    (message : String) : prove P' env (relabel f t) d message =
      (fun x => (x.1, relabel f x.2)) <$> prove P env t d message := by
  simp only [prove, relabel_getProver hf hg, map_eq_pure_bind, bind_assoc, pure_bind]
  refine bind_congr fun x => ?_
  obtain ⟨p?, t'⟩ := x
  cases p? with
  | none => rfl
  | some p =>
    simp only [relabelR, Option.map_some, relabel_getNizkProof hf hg, map_eq_pure_bind, bind_assoc, pure_bind,
      relabel_stmtOf hg]

end

end Zksk
