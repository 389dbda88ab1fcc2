import Verif.SpecPublic

/-! Simulators use the public part of a statement only. -/

set_option linter.unusedSectionVars false

namespace Zksk

open Spec

variable {E : Type} [AddCommGroup E] [DecidableEq E]

/-- What simulating a prepared leaf looks at. -/
def nudeLeaf : Leaf E → Leaf E
  | .dlrep s => .dlrep { s with secretValues := [], simulated := false }
  | .ext s => .ext ⟨⟨s.spec.cls, fun _ _ => .error .attributeError, fun _ => .ok (), raise .attributeError,
      raise .attributeError⟩, false, s.precommitment, s.constructed, none⟩

mutual
/-- `nudeLeaf` for trees. -/
def nudeT : Stmt E → Stmt E
  | .leaf l => .leaf (nudeLeaf l)
  | .and _ subs => .and false (nudeL subs)
  | .or _ subs => .or false (nudeL subs)
/-- `nudeT` for lists. -/
def nudeL : List (Stmt E) → List (Stmt E)
  | [] => []
  | t :: ts => nudeT t :: nudeL ts
end

theorem simulate_nudeLeaf (l : Leaf E) (d : Option (Dict Int)) (c : Option Int) :
    (StmtOps.simulate (nudeLeaf l) d c : PM (Sim E)) = StmtOps.simulate l d c := by
  cases l <;> rfl

theorem secretVars_nudeLeaf (l : Leaf E) :
    (StmtOps.secretVars (E := E) (nudeLeaf l)) = StmtOps.secretVars (E := E) l := by
  cases l <;> rfl

theorem bases_nudeLeaf (l : Leaf E) : (StmtOps.bases (E := E) (nudeLeaf l)) = StmtOps.bases (E := E) l := by
  cases l <;> rfl

theorem proofId_nudeLeaf (σ : Store) (m : IdMap) (l : Leaf E) :
    (StmtOps.proofId (E := E) σ m (nudeLeaf l)) = StmtOps.proofId (E := E) σ m l := by
  cases l <;> rfl

mutual
theorem secretVars_nude : ∀ t : Stmt E, (nudeT t).secretVars = t.secretVars
  | .leaf l => secretVars_nudeLeaf l
  | .and _ subs => secretVarsL_nude subs
  | .or _ subs => secretVarsL_nude subs
theorem secretVarsL_nude : ∀ ts : List (Stmt E), Tree.secretVarsL (nudeL ts) = Tree.secretVarsL ts
  | [] => rfl
  | t :: ts => by simp only [nudeL, Tree.secretVarsL, secretVars_nude t, secretVarsL_nude ts]
end

mutual
theorem bases_nude : ∀ t : Stmt E, (nudeT t).bases = t.bases
  | .leaf l => bases_nudeLeaf l
  | .and _ subs => basesL_nude subs
  | .or _ subs => basesL_nude subs
theorem basesL_nude : ∀ ts : List (Stmt E), Tree.basesL (nudeL ts) = Tree.basesL ts
  | [] => rfl
  | t :: ts => by simp only [nudeL, Tree.basesL, bases_nude t, basesL_nude ts]
end

mutual
theorem proofIdWith_nude (σ : Store) (m : IdMap) : ∀ t : Stmt E,
    Tree.proofIdWith σ m (nudeT t) = Tree.proofIdWith σ m t
  | .leaf l => proofId_nudeLeaf σ m l
  | .and _ subs => by simp only [nudeT, Tree.proofIdWith, proofIdWithL_nude σ m subs]
  | .or _ subs => by simp only [nudeT, Tree.proofIdWith, proofIdWithL_nude σ m subs]
theorem proofIdWithL_nude (σ : Store) (m : IdMap) : ∀ ts : List (Stmt E),
    Tree.proofIdWithL σ m (nudeL ts) = Tree.proofIdWithL σ m ts
  | [] => rfl
  | t :: ts => by simp only [nudeL, Tree.proofIdWithL, proofIdWith_nude σ m t, proofIdWithL_nude σ m ts]
end

theorem proofId_nude (σ : Store) (t : Stmt E) : Tree.proofId σ (nudeT t) = Tree.proofId σ t := by
  unfold Tree.proofId
  simp only [secretVars_nude, proofIdWith_nude]

theorem updateRandomizers_nude (s : Bool) (subs : List (Stmt E)) (d : Option (Dict Int)) :
    Tree.updateRandomizers (.and false (nudeL subs) : Stmt E) d = Tree.updateRandomizers (.and s subs) d := by
  have h1 : (Tree.and false (nudeL subs) : Stmt E).secretVars = (Tree.and s subs).secretVars := secretVarsL_nude subs
  have h2 : (Tree.and false (nudeL subs) : Stmt E).bases = (Tree.and s subs).bases := basesL_nude subs
  unfold Tree.updateRandomizers Tree.getRandomizers
  rw [h1, h2]

mutual
theorem simulate_nude : ∀ (t : Stmt E) (d : Option (Dict Int)) (c : Option Int),
    Tree.simulate (nudeT t) d c = Tree.simulate t d c
  | .leaf l, d, c => simulate_nudeLeaf l d c
  | .and s subs, d, c => by
    simp only [nudeT, Tree.simulate, updateRandomizers_nude s subs, simulateAnd_nude subs]
  | .or _ subs, d, c => by simp only [nudeT, Tree.simulate, simulateOr_nude subs]
theorem simulateAnd_nude : ∀ (ts : List (Stmt E)) (d : Dict Int) (c : Int),
    Tree.simulateAnd (nudeL ts) d c = Tree.simulateAnd ts d c
  | [], _, _ => rfl
  | t :: ts, d, c => by simp only [nudeL, Tree.simulateAnd, simulate_nude t, simulateAnd_nude ts]
theorem simulateOr_nude : ∀ (ts : List (Stmt E)) (c : Int) (acc : List Int),
    Tree.simulateOr (nudeL ts) c acc = Tree.simulateOr ts c acc
  | [], _, _ => rfl
  | [t], c, acc => by simp only [nudeL, Tree.simulateOr, simulate_nude t]
  | t :: t' :: ts, c, acc => by
    have h := simulateOr_nude (t' :: ts)
    simp only [nudeL] at h
    simp only [nudeL, Tree.simulateOr, simulate_nude t, h]
end

theorem prepare_publicLeaf (l : Leaf E) :
    (nudeLeaf <$> StmtOps.prepareSim (E := E) (publicLeaf l) : PM (Leaf E)) = nudeLeaf <$> StmtOps.prepareSim (E := E) l := by
  cases l with
  | dlrep s => rfl
  | ext s =>
    simp only [publicLeaf, StmtOps.prepareSim, Ext.prepareSim, map_bind, map_pure, bind_assoc]
    refine congrArg (s.spec.simPrecommit >>= ·) (funext fun v => ?_)
    refine congrArg (getStore >>= ·) (funext fun σ => ?_)
    unfold Ext.fullConstruct
    simp only
    cases s.spec.construct σ v <;> rfl

mutual
theorem prepare_public : ∀ t : Stmt E,
    (nudeT <$> Tree.prepareSim (publicPart t) : PM (Stmt E)) = nudeT <$> Tree.prepareSim t
  | .leaf l => by
    have h := prepare_publicLeaf l
    simp only [publicPart, Tree.prepareSim, map_bind, map_pure, nudeT]
    have h' := congrArg (fun m : PM (Leaf E) => m >>= fun l => pure (Tree.leaf l : Stmt E)) h
    simpa only [bind_map_left] using h'
  | .and _ subs => by
    have h := prepareL_public subs
    simp only [publicPart, Tree.prepareSim, map_bind, map_pure, nudeT]
    have h' := congrArg (fun m : PM (List (Stmt E)) => m >>= fun l => pure (Tree.and false l : Stmt E)) h
    simpa only [bind_map_left] using h'
  | .or _ subs => by
    have h := prepareL_public subs
    simp only [publicPart, Tree.prepareSim, map_bind, map_pure, nudeT]
    have h' := congrArg (fun m : PM (List (Stmt E)) => m >>= fun l => pure (Tree.or false l : Stmt E)) h
    simpa only [bind_map_left] using h'
theorem prepareL_public : ∀ ts : List (Stmt E),
    (nudeL <$> Tree.prepareSimL (publicPartL ts) : PM (List (Stmt E))) = nudeL <$> Tree.prepareSimL ts
  | [] => rfl
  | t :: ts => by
    have h1 := prepare_public t
    have h2 := prepareL_public ts
    simp only [publicPartL, Tree.prepareSimL, map_bind, map_pure, nudeL]
    have h2' : ∀ u : Stmt E, (Tree.prepareSimL (publicPartL ts) >>= fun a => pure (u :: nudeL a) : PM (List (Stmt E))) =
        Tree.prepareSimL ts >>= fun a => pure (u :: nudeL a) := by
      intro u
      have h' := congrArg (fun m : PM (List (Stmt E)) => m >>= fun l => pure (u :: l)) h2
      simpa only [bind_map_left] using h'
    simp only [h2']
    have h' := congrArg (fun m : PM (Stmt E) => m >>= fun u => Tree.prepareSimL ts >>= fun a => pure (u :: nudeL a)) h1
    simpa only [bind_map_left] using h'
end

theorem publicLeaf_twice (l : Leaf E) : publicLeaf (publicLeaf l) = publicLeaf l := by cases l <;> rfl

mutual
theorem publicPart_twice : ∀ t : Stmt E, publicPart (publicPart t) = publicPart t
  | .leaf l => by simp only [publicPart, publicLeaf_twice]
  | .and _ subs => by simp only [publicPart, publicPartL_twice subs]
  | .or _ subs => by simp only [publicPart, publicPartL_twice subs]
theorem publicPartL_twice : ∀ ts : List (Stmt E), publicPartL (publicPartL ts) = publicPartL ts
  | [] => rfl
  | t :: ts => by simp only [publicPartL, publicPart_twice t, publicPartL_twice ts]
end

theorem publicPart_setSimulated (b : Bool) (t : Stmt E) : publicPart (Tree.setSimulated b t) = publicPart t := by
  cases t with
  | leaf l => cases l <;> rfl
  | and => rfl
  | or => rfl

/-- Preparing needs the public part only. -/
theorem prepare_same {t u : Stmt E} (h : publicPart t = publicPart u) :
    (nudeT <$> Tree.prepareSim t : PM (Stmt E)) = nudeT <$> Tree.prepareSim u := by
  rw [← prepare_public t, ← prepare_public u, h]

/-- A simulation depends on the public part of the statement only. -/
theorem simulatedRun_same (env : Env E) {t u : Stmt E} (h : publicPart t = publicPart u) (c : Int) :
    simulatedRunStmt env t c = simulatedRunStmt env u c := by
  have h1 := prepare_same (t := Tree.setSimulated true t) (u := Tree.setSimulated true u)
    (by rw [publicPart_setSimulated, publicPart_setSimulated, h])
  let K : Stmt E → PM (Val E × Transcript E) := fun t1 => do
    let tr ← Tree.simulate t1 none (some c)
    let σ ← getStore
    let id ← liftE (Tree.proofId σ t1)
    pure (tr.precommitment, ⟨env.digest id, tr.commitment, tr.challenge, tr.responses⟩)
  have hK : ∀ t1, K (nudeT t1) = K t1 := by
    intro t1
    simp only [K, simulate_nude, proofId_nude]
  have hrun : ∀ v : Stmt E, simulatedRunStmt env v c = (nudeT <$> Tree.prepareSim (Tree.setSimulated true v)) >>= K := by
    intro v
    unfold simulatedRunStmt simulateTop
    simp only [bind_map_left, hK, bind_assoc, pure_bind, K]
  rw [hrun, hrun, h1]

/-! ### Statements without extended parts -/

mutual
theorem secretVars_public : ∀ t : Core E, (publicCore t).secretVars = t.secretVars
  | .leaf _ => rfl
  | .and _ subs => secretVarsL_public subs
  | .or _ subs => secretVarsL_public subs
theorem secretVarsL_public : ∀ ts : List (Core E), Tree.secretVarsL (publicCoreL ts) = Tree.secretVarsL ts
  | [] => rfl
  | t :: ts => by simp only [publicCoreL, Tree.secretVarsL, secretVars_public t, secretVarsL_public ts]
end

mutual
theorem bases_public : ∀ t : Core E, (publicCore t).bases = t.bases
  | .leaf _ => rfl
  | .and _ subs => basesL_public subs
  | .or _ subs => basesL_public subs
theorem basesL_public : ∀ ts : List (Core E), Tree.basesL (publicCoreL ts) = Tree.basesL ts
  | [] => rfl
  | t :: ts => by simp only [publicCoreL, Tree.basesL, bases_public t, basesL_public ts]
end

mutual
theorem proofIdWith_public (σ : Store) (m : IdMap) : ∀ t : Core E,
    Tree.proofIdWith σ m (publicCore t) = Tree.proofIdWith σ m t
  | .leaf _ => rfl
  | .and _ subs => by simp only [publicCore, Tree.proofIdWith, proofIdWithL_public σ m subs]
  | .or _ subs => by simp only [publicCore, Tree.proofIdWith, proofIdWithL_public σ m subs]
theorem proofIdWithL_public (σ : Store) (m : IdMap) : ∀ ts : List (Core E),
    Tree.proofIdWithL σ m (publicCoreL ts) = Tree.proofIdWithL σ m ts
  | [] => rfl
  | t :: ts => by simp only [publicCoreL, Tree.proofIdWithL, proofIdWith_public σ m t, proofIdWithL_public σ m ts]
end

theorem proofId_public (σ : Store) (t : Core E) : Tree.proofId σ (publicCore t) = Tree.proofId σ t := by
  unfold Tree.proofId
  simp only [secretVars_public, proofIdWith_public]

theorem updateRandomizers_public (s : Bool) (subs : List (Core E)) (d : Option (Dict Int)) :
    Tree.updateRandomizers (.and false (publicCoreL subs) : Core E) d = Tree.updateRandomizers (.and s subs) d := by
  have h1 : (Tree.and false (publicCoreL subs) : Core E).secretVars = (Tree.and s subs).secretVars :=
    secretVarsL_public subs
  have h2 : (Tree.and false (publicCoreL subs) : Core E).bases = (Tree.and s subs).bases := basesL_public subs
  unfold Tree.updateRandomizers Tree.getRandomizers
  rw [h1, h2]

mutual
theorem simulate_public : ∀ (t : Core E) (d : Option (Dict Int)) (c : Option Int),
    Tree.simulate (publicCore t) d c = Tree.simulate t d c
  | .leaf _, _, _ => rfl
  | .and s subs, d, c => by
    simp only [publicCore, Tree.simulate, updateRandomizers_public s subs, simulateAnd_public subs]
  | .or _ subs, d, c => by simp only [publicCore, Tree.simulate, simulateOr_public subs]
theorem simulateAnd_public : ∀ (ts : List (Core E)) (d : Dict Int) (c : Int),
    Tree.simulateAnd (publicCoreL ts) d c = Tree.simulateAnd ts d c
  | [], _, _ => rfl
  | t :: ts, d, c => by simp only [publicCoreL, Tree.simulateAnd, simulate_public t, simulateAnd_public ts]
theorem simulateOr_public : ∀ (ts : List (Core E)) (c : Int) (acc : List Int),
    Tree.simulateOr (publicCoreL ts) c acc = Tree.simulateOr ts c acc
  | [], _, _ => rfl
  | [t], c, acc => by simp only [publicCoreL, Tree.simulateOr, simulate_public t]
  | t :: t' :: ts, c, acc => by
    have h := simulateOr_public (t' :: ts)
    simp only [publicCoreL] at h
    simp only [publicCoreL, Tree.simulateOr, simulate_public t, h]
end

mutual
theorem prepare_core : ∀ t : Core E, (Tree.prepareSim t : PM (Core E)) = pure t
  | .leaf s => by
    have : (StmtOps.prepareSim (E := E) s : PM (DLRep E)) = pure s := rfl
    simp only [Tree.prepareSim, this, pure_bind]
  | .and _ subs => by simp only [Tree.prepareSim, prepareL_core subs, pure_bind]
  | .or _ subs => by simp only [Tree.prepareSim, prepareL_core subs, pure_bind]
theorem prepareL_core : ∀ ts : List (Core E), (Tree.prepareSimL ts : PM (List (Core E))) = pure ts
  | [] => rfl
  | t :: ts => by simp only [Tree.prepareSimL, prepare_core t, prepareL_core ts, pure_bind]
end

mutual
theorem publicCore_twice : ∀ t : Core E, publicCore (publicCore t) = publicCore t
  | .leaf _ => rfl
  | .and _ subs => by simp only [publicCore, publicCoreL_twice subs]
  | .or _ subs => by simp only [publicCore, publicCoreL_twice subs]
theorem publicCoreL_twice : ∀ ts : List (Core E), publicCoreL (publicCoreL ts) = publicCoreL ts
  | [] => rfl
  | t :: ts => by simp only [publicCoreL, publicCore_twice t, publicCoreL_twice ts]
end

theorem publicCore_setSimulated (b : Bool) (t : Core E) : publicCore (Tree.setSimulated b t) = publicCore t := by
  cases t <;> rfl

/-- A simulation depends on the public part of the statement only. -/
theorem simulatedRun_core_same (env : Env E) {t u : Core E} (h : publicCore t = publicCore u) (c : Int) :
    simulatedRun env t c = simulatedRun env u c := by
  have hrun : ∀ v : Core E, simulatedRun env v c = (do
      let tr ← Tree.simulate (publicCore v) none (some c)
      let σ ← getStore
      let id ← liftE (Tree.proofId σ (publicCore v))
      pure (tr.precommitment, ⟨env.digest id, tr.commitment, tr.challenge, tr.responses⟩)) := by
    intro v
    have e := publicCore_setSimulated true v
    unfold simulatedRun simulateTop
    simp only [prepare_core, pure_bind, bind_assoc]
    rw [← simulate_public (Tree.setSimulated true v), e]
    refine congrArg (Tree.simulate (publicCore v) none (some c) >>= ·) (funext fun tr => ?_)
    refine congrArg (getStore >>= ·) (funext fun σ => ?_)
    rw [← proofId_public, e]
  rw [hrun, hrun, h]

end Zksk
