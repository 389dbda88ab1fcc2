import Verif.SpecRun
import Mathlib.SetTheory.Cardinal.Finite

/-! # A verifier who talks with somebody who is not an honest prover -/

namespace Zksk.Spec

variable {E L : Type} [AddCommGroup E] [DecidableEq E] [StmtOps E L] [ChallengeOps L]

/-- What the verifier of `SigmaProtocol.verify` (`zksk/utils/debug.py:19-39`) does, if the other side sends the precommitment
`v`, the statement hash `h` and the commitment `com`, and answers the challenge `c` with `answer c`. -/
def interview (env : Env E) (σ : Store) (t : Tree L) (v : Val E) (h : List UInt8) (com : Val E) (answer : Int → Val E) : PM Bool := do
  let t1 ← liftE (Tree.process σ (Tree.freshVerifier t) v)
  let c ← sendChallenge env σ t1 h
  liftE (verifyResponse σ t1 com c (answer c))

/-- The verifier accepts when the first random number they read is `k`. -/
def Convinced (env : Env E) (σ : Store) (t : Tree L) (v : Val E) (h : List UInt8) (com : Val E) (answer : Int → Val E)
    (k : Fin (2 ^ 128)) : Prop :=
  ∃ (τ : Store) (rest : Nat → Nat) (w : World), interview env σ t v h com answer ⟨τ, tape (fun _ : Fin 1 => k) rest⟩ = .ok (true, w)

/-- How many of the `2^128` random numbers make the verifier accept. -/
noncomputable def convinced (env : Env E) (σ : Store) (t : Tree L) (v : Val E) (h : List UInt8) (com : Val E)
    (answer : Int → Val E) : Nat :=
  Nat.card {k : Fin (2 ^ 128) // Convinced env σ t v h com answer k}

end Zksk.Spec
