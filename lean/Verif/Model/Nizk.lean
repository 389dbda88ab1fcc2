import Verif.Model.Ext

/-! # Non-interactive verification (`zksk/base.py`) -/

namespace Zksk

variable {E : Type} [AddCommGroup E] [DecidableEq E]

/-- External functions used for hashing.
* `sha` is `hashlib.sha256(...).digest()` of the concatenation of all `update`d chunks,
* `toInt` is `Bn.from_hex(h.hexdigest())` (`zksk/base.py:91`),
* `idBytes` is `encode(str(proof_id))` (`zksk/composition.py:274`),
* `encode` is `petlib.pack.encode`, `utf8` is `str.encode`. -/
structure Env (E : Type) where
  sha : List UInt8 → List UInt8
  toInt : List UInt8 → Int
  idBytes : PId E → List UInt8
  encode : Val E → List UInt8
  utf8 : String → List UInt8

/-- `NIZK` (`zksk/base.py:22-31`). Simplification: `challenge` is an integer. -/
structure NIZK (E : Type) where
  challenge : Int
  responses : Val E
  precommitment : Val E
  stmtHash : List UInt8

/-- What is hashed for one argument (`zksk/base.py:83-88`): `bytes` are taken raw, feeding a `str`
to the hash object raises, everything else is encoded. -/
def Env.chunk (env : Env E) : Val E → Except Err (List UInt8)
  | .bytes b => .ok b
  | .str _ => .error .typeError
  | v => .ok (env.encode v)

/-- The byte string hashed by `build_fiat_shamir_challenge` (`zksk/base.py:69-91`) on top of the
statement prehash, for the two arguments it is called with. -/
def Env.challengeInput (env : Env E) (id : PId E) (precom com : Val E) (message : String) :
    Except Err (List UInt8) := do
  let a ← env.chunk precom
  let b ← env.chunk com
  .ok (env.idBytes id ++ a ++ b ++ env.utf8 message)

/-- `build_fiat_shamir_challenge` (`zksk/base.py:69-91`). -/
def Env.fiatShamir (env : Env E) (id : PId E) (precom com : Val E) (message : String) :
    Except Err Int := do
  let input ← env.challengeInput id precom com message
  .ok (env.toInt (env.sha input))

/-- `prehash_statement().digest()` (`zksk/composition.py:270-274`). -/
def Env.digest (env : Env E) (id : PId E) : List UInt8 := env.sha (env.idBytes id)

variable {L : Type} [StmtOps E L]

/-- `check_statement` (`zksk/composition.py:207-216`); returns the statement id whose prehash is used
further. -/
def checkStatement (env : Env E) (σ : Store) (t : Tree L) (h : List UInt8) : Except Err (PId E) := do
  let id ← Tree.proofId σ t
  if h ≠ env.digest id then .error .statementMismatch else .ok id

/-- `pre_verification_validation` (`zksk/base.py:206-210`). -/
def preVerification (σ : Store) (t : Tree L) (r : Val E) : Except Err Unit := do
  Tree.fullValidate t
  let (b, _) ← Tree.consistency σ t r []
  if b then .ok () else .error .validation

/-- First step of `verify_nizk` (`zksk/base.py:249-250`). -/
def digestPrecommitment (σ : Store) (t : Tree L) (v : Val E) : Except Err (Tree L) :=
  if v.isNone then .ok t else Tree.process σ t v

/-- `stmt.verify(nizk, message)` (`zksk/composition.py:200-205`, `zksk/base.py:233-263`). -/
def verify (env : Env E) (σ : Store) (t : Tree L) (nizk : NIZK E) (message : String) :
    Except Err Bool := do
  let t1 ← digestPrecommitment σ (Tree.freshVerifier t) nizk.precommitment
  let id ← checkStatement env σ t1 nizk.stmtHash
  preVerification σ t1 nizk.responses
  let com ← Tree.recompute t1 nizk.challenge nizk.responses
  let c' ← env.fiatShamir id nizk.precommitment com message
  .ok (decide (nizk.challenge = c'))

/-- `Verifier.verify(response)` (`zksk/base.py:212-231`) for a stored commitment and challenge. -/
def verifyResponse (σ : Store) (t : Tree L) (com : Val E) (c : Int) (r : Val E) :
    Except Err Bool := do
  preVerification σ t r
  let com' ← Tree.recompute t c r
  .ok (decide (com = com'))

/-- `simulate(challenge)` (`zksk/composition.py:300-308`): the transcript, its statement hash and the
mutated statement. -/
def simulateTop (env : Env E) (t : Tree L) (c : Option Int) :
    PM (Sim E × List UInt8 × Tree L) := do
  let t1 ← Tree.prepareSim (Tree.setSimulated true t)
  let tr ← Tree.simulate t1 none c
  let σ ← getStore
  let id ← liftE (Tree.proofId σ t1)
  pure (tr, env.digest id, t1)

/-- `verify_simulation_consistency(transcript)` (`zksk/composition.py:310-328`). -/
def verifySimulationConsistency (env : Env E) (σ : Store) (t : Tree L) (tr : Sim E)
    (h : List UInt8) : Except Err Bool := do
  let t1 ← Tree.process σ (Tree.freshVerifier t) tr.precommitment
  let _ ← checkStatement env σ t1 h
  verifyResponse σ t1 tr.commitment tr.challenge tr.responses

end Zksk
