import Verif.SpecCodec

/-! # What the verifier asks the hash function -/

namespace Zksk.Spec

variable {E : Type} [AddCommGroup E] [DecidableEq E] {L : Type} [StmtOps E L]

/-- The byte string whose hash the verifier compares with the challenge of the proof (`zksk/base.py:233-263`, `:69-91`):
statement identifier, precommitment, the commitment recomputed from challenge and responses, and the message. -/
def asked (env : Env E) (σ : Store) (t : Tree L) (nizk : NIZK E) (msg : String) : Except Err (List UInt8) := do
  let t1 ← digestPrecommitment σ (Tree.freshVerifier t) nizk.precommitment
  let id ← Tree.proofId σ t1
  let com ← Tree.recompute t1 nizk.challenge nizk.responses
  env.challengeInput id nizk.precommitment com msg

/-- The same encodings with another hash function. -/
def rehash (env : Env E) (sha' : List UInt8 → List UInt8) : Env E := { env with sha := sha' }

/-- What is assumed of the encodings: none is a prefix of another one, and they determine the content. -/
structure Readable (env : Env E) : Prop where
  ids : ∀ a b x y, env.idBytes a ++ x = env.idBytes b ++ y → env.idBytes a = env.idBytes b
  values : ∀ a b x y, env.encode a ++ x = env.encode b ++ y → content a = content b ∧ x = y
  texts : Function.Injective env.utf8

/-- `sha`, except that the answer to `q` is `a`. -/
def answering (sha : List UInt8 → List UInt8) (q a : List UInt8) : List UInt8 → List UInt8 :=
  fun x => if x = q then a else sha x

/-- A proof made without secrets by somebody who may choose one answer `a` of the hash function: the transcript of
`simulate()` (`zksk/composition.py:300-308`) for the challenge that `a` stands for, with `f` applied to its
precommitment.  Comes with the question that has to be answered by `a`, and the statement object after the call. -/
def programmed (env : Env E) (t : Tree L) (f : Val E → Val E) (a : List UInt8) (msg : String) :
    PM (NIZK E × List UInt8 × Tree L) := do
  let (tr, h, t') ← simulateTop env t (some (env.toInt a))
  let σ ← getStore
  let id ← liftE (Tree.proofId σ t')
  let q ← liftE (env.challengeInput id (f tr.precommitment) tr.commitment msg)
  pure (⟨tr.challenge, tr.responses, f tr.precommitment, h⟩, q, t')

end Zksk.Spec
