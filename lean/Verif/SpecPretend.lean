import Verif.SpecWitness

/-! # Runs without the values of the secrets -/

namespace Zksk.Spec

variable {E : Type} [AddCommGroup E] [DecidableEq E]

/-- Somebody (`σ`, `d`) proves a statement with the values `X` of the secrets.  An outsider (`σ'`, `d'`) has objects
of the same form and is told for which secrets there are values, but not the values: instead of them there may be any
numbers.  As for `Peers`, `true` says that the clause can be proved (all values are given; those of the first person
make it true, nothing is said about the numbers of the outsider), `false` that it cannot. -/
inductive Informed (σ : Store) (d : Dict Int) (X : Key → Int) (σ' : Store) (d' : Dict Int) :
    Bool → Core E → Core E → Prop
  | rep (s s' : DLRep E) (hv : ∀ x ∈ s.secretVars, given σ d s x = some (X (σ.key x)))
      (h : Holds σ (.leaf s) X) (hv' : ∀ x ∈ s'.secretVars, (given σ' d' s' x).isSome) :
      Informed σ d X σ' d' true (.leaf s) (.leaf s')
  | lack (s s' : DLRep E) (x x' : Sec) (hx : x ∈ s.secretVars) (h : given σ d s x = none)
      (hx' : x' ∈ s'.secretVars) (h' : given σ' d' s' x' = none) :
      Informed σ d X σ' d' false (.leaf s) (.leaf s')
  | all (subs subs' : List (Core E))
      (h : ∀ (i : Nat) t t', subs[i]? = some t → subs'[i]? = some t' → Informed σ d X σ' d' true t t') :
      Informed σ d X σ' d' true (.and false subs) (.and false subs')
  | markedAll (subs subs' : List (Core E)) : Informed σ d X σ' d' false (.and true subs) (.and true subs')
  | markedAny (subs subs' : List (Core E)) : Informed σ d X σ' d' false (.or true subs) (.or true subs')
  | any (subs subs' : List (Core E)) (can : Nat → Bool) (b : Bool)
      (hm : ∀ (i : Nat) t t', subs[i]? = some t → subs'[i]? = some t' → (unmarked t ↔ unmarked t'))
      (h : ∀ (i : Nat) t t', subs[i]? = some t → subs'[i]? = some t' → unmarked t →
        Informed σ d X σ' d' (can i) t t')
      (hb : b = true ↔ ∃ i t, subs[i]? = some t ∧ unmarked t ∧ can i = true) :
      Informed σ d X σ' d' b (.or false subs) (.or false subs')

mutual
/-- Commitment and response to the challenge `c`, which is known in advance: where a prover would commit to a
representation with its randomizers and later compute the response from the values of the secrets, `simulate_proof` of
the representation is called with the challenge.  Everything else is put together as the prover does: randomizers are
shared by the parts of a conjunction, the clause of a disjunction that is not simulated gets the residual challenge. -/
def pretend : CoreProver E → Option (Dict Int) → Int → PM (Val E × Val E)
  | .leaf p, d, c => do
    let s ← DLRep.simulate p.stmt d (some c)
    pure (s.commitment, s.responses)
  | .and b subs, d, c => do
    let d' ← Tree.updateRandomizers (Tree.and b (PTree.stmtOfL subs) : Core E) d
    let (cs, rs) ← pretendL subs d' c
    pure (.list cs, .list rs)
  | .or _ i _ sub sims, _, c => do
    let residual := findResidualChallenge (sims.map Sim.challenge) c challengeLength
    let (v, r) ← pretend sub none residual
    pure (.list ((sims.map Sim.commitment).insertIdx i v),
      .tuple [.list (((sims.map Sim.challenge).insertIdx i residual).map Val.int),
        .list ((sims.map Sim.responses).insertIdx i r)])
/-- The parts of a conjunction. -/
def pretendL : List (CoreProver E) → Dict Int → Int → PM (List (Val E) × List (Val E))
  | [], _, _ => pure ([], [])
  | p :: ps, d, c => do
    let (v, r) ← pretend p (some d) c
    let (vs, rs) ← pretendL ps d c
    pure (v :: vs, r :: rs)
end

/-- What somebody who does not know the values of the secrets, but knows the challenge `c` in advance, makes instead of
the prover: precommitment, identifier of the statement, commitment and response.  `d` has any numbers for the secrets;
`get_prover` looks only for which of them there is one, and selects and simulates clauses of disjunctions. -/
def pretendedView (t : Core E) (d : Dict Int) (c : Int) : PM (Val E × PId E × Val E × Val E) := do
  let (p?, _) ← (PTree.getProver t d : PM (Option (CoreProver E) × Core E))
  match p? with
  | none => raise .attributeError
  | some p => do
    let (v, p1) ← PTree.precommit p
    let σ ← getStore
    let id ← liftE (Tree.proofId σ (PTree.stmtOf p1))
    let (com, r) ← pretend p1 none c
    pure (v, id, com, r)

/-- A run with the challenge `c` made in this way. -/
def pretendedRun (env : Env E) (t : Core E) (d : Dict Int) (c : Int) : PM (Val E × Transcript E) := do
  let (v, id, com, r) ← pretendedView t d c
  pure (v, ⟨env.digest id, com, c, r⟩)

/-- A non-interactive proof made in this way by somebody who may choose one answer `a` of the hash function.  Comes with
the question that has to be answered by `a`. -/
def pretendedProof (env : Env E) (t : Core E) (d : Dict Int) (a : List UInt8) (message : String) :
    PM (NIZK E × List UInt8) := do
  let (v, id, com, r) ← pretendedView t d (env.toInt a)
  let q ← liftE (env.challengeInput id v com message)
  pure (⟨env.toInt a, r, v, env.digest id⟩, q)

end Zksk.Spec
