import Verif.SpecPretend
import Verif.SpecPublic

/-! # Runs of compositions with primitives, without the values of the secrets -/

namespace Zksk.Spec

variable {E : Type} [AddCommGroup E] [DecidableEq E]

/-- The objects `u` of an outsider for the statement `t` of a prover.  The outsider (`σ'`, `d'`) has a number, any
number, for every secret of the representations that may be proved, and knows which clauses are marked as simulated.
Extended parts agree in all but `precommit()` and traces of earlier runs, simulated clauses in their public part. -/
inductive Outsider (σ' : Store) (d' : Dict Int) : Stmt E → Stmt E → Prop
  | rep (s s' : DLRep E) (h : publicLeaf (.dlrep s') = publicLeaf (.dlrep s))
      (hv : ∀ x ∈ s'.secretVars, (given σ' d' s' x).isSome) : Outsider σ' d' (.leaf (.dlrep s)) (.leaf (.dlrep s'))
  | ext (s s' : Ext E) (h : publicLeaf (.ext s') = publicLeaf (.ext s)) : Outsider σ' d' (.leaf (.ext s)) (.leaf (.ext s'))
  | all (subs subs' : List (Stmt E)) (hl : subs'.length = subs.length)
      (h : ∀ (i : Nat) t t', subs[i]? = some t → subs'[i]? = some t' → Outsider σ' d' t t') :
      Outsider σ' d' (.and false subs) (.and false subs')
  | any (subs subs' : List (Stmt E)) (hl : subs'.length = subs.length)
      (hp : ∀ (i : Nat) t t', subs[i]? = some t → subs'[i]? = some t' →
        publicPart t' = publicPart t ∧ t'.simulated = t.simulated)
      (h : ∀ (i : Nat) t t', subs[i]? = some t → subs'[i]? = some t' → t.simulated = false → Outsider σ' d' t t') :
      Outsider σ' d' (.or false subs) (.or false subs')

/-- The objects `t` and `t'` of two provers for the same statement, with the same clauses marked as simulated: they agree
up to known values, `precommit()` and traces of earlier runs. -/
inductive SamePlan : Stmt E → Stmt E → Prop
  | leaf (l l' : Leaf E) (h : publicLeaf l' = publicLeaf l) : SamePlan (.leaf l) (.leaf l')
  | all (subs subs' : List (Stmt E)) (hl : subs'.length = subs.length)
      (h : ∀ (i : Nat) t t', subs[i]? = some t → subs'[i]? = some t' → SamePlan t t') :
      SamePlan (.and false subs) (.and false subs')
  | any (subs subs' : List (Stmt E)) (hl : subs'.length = subs.length)
      (hp : ∀ (i : Nat) t t', subs[i]? = some t → subs'[i]? = some t' →
        publicPart t' = publicPart t ∧ t'.simulated = t.simulated)
      (h : ∀ (i : Nat) t t', subs[i]? = some t → subs'[i]? = some t' → t.simulated = false → SamePlan t t') :
      SamePlan (.or false subs) (.or false subs')

/-- What is needed of the extended parts that are simulated: precommitments simulated in the heaps `σ` and `σs` from
the same uniform numbers below `M` are the same, and so are the statements constructed from them. -/
def LeafBlind (M : Nat) (σ σs : Store) : Leaf E → Prop
  | .dlrep _ => True
  | .ext s => (∃ n, ∀ y : Fin n → Fin M, ∃ v, ∀ rest,
      s.spec.simPrecommit ⟨σ, tape y rest⟩ = .ok (v, ⟨σ, rest⟩) ∧
      s.spec.simPrecommit ⟨σs, tape y rest⟩ = .ok (v, ⟨σs, rest⟩)) ∧ LeafFor σs (.ext s) (.ext s)

mutual
/-- The precommitment of a prover, put together as the prover does, but with precommitments of extended parts that
come from `simulate_precommit()`. -/
def pretendPre : StmtProver E → PM (Val E × StmtProver E)
  | .leaf (.dlrep p) => pure (.none, .leaf (.dlrep p))
  | .leaf (.ext p) => do
    let s ← Ext.prepareSim p.stmt
    pure (s.precommitment, .leaf (.ext { p with stmt := s }))
  | .and b subs => do
    let (vs, ps) ← pretendPreL subs
    pure (if ∀ v ∈ vs, v = .none then .none else .list vs, .and b ps)
  | .or b i stmts sub sims => do
    let (v, p) ← pretendPre sub
    let vs := (sims.map Sim.precommitment).insertIdx i v
    pure (if vs.any Val.truthy then .list vs else .none, .or b i stmts p sims)
/-- The parts of a conjunction. -/
def pretendPreL : List (StmtProver E) → PM (List (Val E) × List (StmtProver E))
  | [] => pure ([], [])
  | p :: ps => do
    let (v, p') ← pretendPre p
    let (vs, ps') ← pretendPreL ps
    pure (v :: vs, p' :: ps')
end

mutual
/-- `pretend` for compositions with extended parts: for these, too, `simulate_proof` is called with the challenge. -/
def pretendStmt : StmtProver E → Option (Dict Int) → Int → PM (Val E × Val E)
  | .leaf (.dlrep p), d, c => do
    let s ← DLRep.simulate p.stmt d (some c)
    pure (s.commitment, s.responses)
  | .leaf (.ext p), d, c => do
    let s ← Ext.simulate p.stmt d (some c)
    pure (s.commitment, s.responses)
  | .and b subs, d, c => do
    let d' ← Tree.updateRandomizers (Tree.and b (PTree.stmtOfL subs) : Stmt E) d
    let (cs, rs) ← pretendStmtL subs d' c
    pure (.list cs, .list rs)
  | .or _ i _ sub sims, _, c => do
    let residual := findResidualChallenge (sims.map Sim.challenge) c challengeLength
    let (v, r) ← pretendStmt sub none residual
    pure (.list ((sims.map Sim.commitment).insertIdx i v),
      .tuple [.list (((sims.map Sim.challenge).insertIdx i residual).map Val.int),
        .list ((sims.map Sim.responses).insertIdx i r)])
/-- The parts of a conjunction. -/
def pretendStmtL : List (StmtProver E) → Dict Int → Int → PM (List (Val E) × List (Val E))
  | [], _, _ => pure ([], [])
  | p :: ps, d, c => do
    let (v, r) ← pretendStmt p (some d) c
    let (vs, rs) ← pretendStmtL ps d c
    pure (v :: vs, r :: rs)
end

/-- What somebody who does not know the values of the secrets, but knows the challenge `c` in advance, makes instead of
the prover: precommitment, identifier of the statement, commitment and response.  `precommit()` of the extended parts is
not called. -/
def pretendedViewStmt (t : Stmt E) (d : Dict Int) (c : Int) : PM (Val E × PId E × Val E × Val E) := do
  let (p?, _) ← (PTree.getProver t d : PM (Option (StmtProver E) × Stmt E))
  match p? with
  | none => raise .attributeError
  | some p => do
    let (v, p1) ← pretendPre p
    let σ ← getStore
    let id ← liftE (Tree.proofId σ (PTree.stmtOf p1))
    let (com, r) ← pretendStmt p1 none c
    pure (v, id, com, r)

/-- A run with the challenge `c` made in this way. -/
def pretendedRunStmt (env : Env E) (t : Stmt E) (d : Dict Int) (c : Int) : PM (Val E × Transcript E) := do
  let (v, id, com, r) ← pretendedViewStmt t d c
  pure (v, ⟨env.digest id, com, c, r⟩)

/-- A non-interactive proof made in this way by somebody who may choose one answer `a` of the hash function.  Comes with
the question that has to be answered by `a`. -/
def pretendedProofStmt (env : Env E) (t : Stmt E) (d : Dict Int) (a : List UInt8) (message : String) :
    PM (NIZK E × List UInt8) := do
  let (v, id, com, r) ← pretendedViewStmt t d (env.toInt a)
  let q ← liftE (env.challengeInput id v com message)
  pure (⟨env.toInt a, r, v, env.digest id⟩, q)

end Zksk.Spec
