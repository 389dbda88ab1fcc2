import Verif.Model.Prover

/-! # The interactive protocol (`zksk/base.py:112-133,190-231`, `zksk/utils/debug.py`) -/

namespace Zksk

variable {E : Type} [AddCommGroup E] [DecidableEq E]

/-- What `send_challenge` does before drawing the challenge and after checking the statement, for
verifiers of leaves. -/
class ChallengeOps (L : Type) where
  gate : L → Except Err Unit

/-- `DLRepVerifier` inherits `Verifier.send_challenge` (`zksk/base.py:190-204`). -/
instance : ChallengeOps (DLRep E) where
  gate _ := .ok ()

/-- `ExtendedVerifier.send_challenge` (`zksk/extended.py:227-237`) calls `send_challenge` of the
constructed verifier with the keyword `ignore_statement_hash_checks`, which only `AndVerifier` has. -/
instance : ChallengeOps (Leaf E) where
  gate
    | .dlrep _ => .ok ()
    | .ext s =>
      match s.verifier with
      | none => .error .attributeError
      | some v => if Tree.ignoresHash v then .ok () else .error .typeError

section
variable {L P : Type} [StmtOps E L] [ProverOps E L P] [ChallengeOps L]

/-- The part of `send_challenge` before the draw. -/
def Tree.gate : Tree L → Except Err Unit
  | .leaf l => ChallengeOps.gate l
  | .and _ _ => .ok ()
  | .or _ _ => .ok ()

/-- `Prover.commit()` (`zksk/base.py:122-133`): statement hash and commitment. -/
def PTree.commit (env : Env E) (p : PTree E L P) : PM ((List UInt8 × Val E) × PTree E L P) := do
  let σ ← getStore
  let id ← liftE (Tree.proofId σ (PTree.stmtOf p))
  let (com, p') ← PTree.internalCommit p none
  pure ((env.digest id, com), p')

/-- `Prover.commit(randomizers_dict)` (`zksk/base.py:122-133`) with randomizers chosen by the caller. -/
def PTree.commitGiven (env : Env E) (p : PTree E L P) (d : Dict Int) :
    PM ((List UInt8 × Val E) × PTree E L P) := do
  let σ ← getStore
  let id ← liftE (Tree.proofId σ (PTree.stmtOf p))
  let (com, p') ← PTree.internalCommit p (some d)
  pure ((env.digest id, com), p')

/-- `send_challenge(commitment)` (`zksk/base.py:190-204`, `zksk/composition.py:897-918`,
`zksk/extended.py:227-237`) of a verifier with statement `t` that sees the secrets as in `σ`. -/
def sendChallenge (env : Env E) (σ : Store) (t : Tree L) (h : List UInt8) : PM Int := do
  let _ ← liftE (checkStatement env σ t h)
  liftE (Tree.gate t)
  getRandomNum challengeLength

/-- `SigmaProtocol(verifier, prover).verify()` (`zksk/utils/debug.py:19-39`).  The verifier has a heap
`σv` of its own.  Returns the verdict. -/
def sigmaProtocol (env : Env E) (σv : Store) (tv : Tree L) (p : PTree E L P) : PM Bool := do
  let (v, p1) ← PTree.precommit p
  let t1 ← liftE (Tree.process σv (Tree.freshVerifier tv) v)
  let ((h, com), p2) ← PTree.commit env p1
  let c ← sendChallenge env σv t1 h
  let r ← PTree.computeResponse p2 c
  liftE (verifyResponse σv t1 com c r)

end

end Zksk
