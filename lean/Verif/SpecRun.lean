import Verif.SpecProver
import Verif.Model.Interactive

/-! # What an observer of a run records -/

namespace Zksk.Spec

variable {E : Type} [AddCommGroup E] [DecidableEq E]

/-- Statement hash, commitment, challenge and responses of a run. -/
structure Transcript (E : Type) where
  hash : List UInt8
  commitment : Val E
  challenge : Int
  responses : Val E

/-- A run of the interactive protocol with a prover that knows the values in `d`, seen from outside, when
the verifier sends the challenge `c`: `get_prover`, `precommit`, `commit`, `compute_response`
(`zksk/utils/debug.py:19-39`).  Returns the precommitment and the transcript. -/
def honestRun (env : Env E) (t : Core E) (d : Dict Int) (c : Int) : PM (Val E × Transcript E) := do
  let (p?, _) ← (PTree.getProver t d : PM (Option (CoreProver E) × Core E))
  match p? with
  | none => raise .attributeError
  | some p => do
    let (v, p1) ← PTree.precommit p
    let ((h, com), p2) ← PTree.commit env p1
    let r ← PTree.computeResponse p2 c
    pure (v, ⟨h, com, c, r⟩)

/-- The output of `simulate(challenge)` (`zksk/composition.py:300-308`). -/
def simulatedRun (env : Env E) (t : Core E) (c : Int) : PM (Val E × Transcript E) := do
  let (tr, h, _) ← simulateTop env t (some c)
  pure (tr.precommitment, ⟨h, tr.commitment, tr.challenge, tr.responses⟩)

/-- The random stream that starts with `x` and goes on with `rest`. -/
def tape {n M : Nat} (x : Fin n → Fin M) (rest : Nat → Nat) : Nat → Nat :=
  fun i => if h : i < n then (x ⟨i, h⟩).val else rest (i - n)

/-- Somebody with heap `σs` sees the same pattern of names among `vs` as in `σ`, and identifies the same
secrets. -/
def SeesSame (σ σs : Store) (vs : List Sec) : Prop :=
  SamePattern (vs.map σ.name) (vs.map σs.name) ∧
    ∀ x ∈ vs, ∀ y ∈ vs, (σs.key x = σs.key y ↔ σ.key x = σ.key y)

/-- The same distribution of results: the blocks of `n` uniform numbers below `q` can be matched one to one
such that `p`, started with heap `σ` and a random stream beginning with a block, returns the same value as
`p'`, started with `σ'` and the matching block.  Both read exactly the block. -/
def SameOutputs {A : Type} (n q : Nat) (p : PM A) (σ : Store) (p' : PM A) (σ' : Store) : Prop :=
  ∃ e : Equiv.Perm (Fin n → Fin q), ∀ (y : Fin n → Fin q) (rest : Nat → Nat), ∃ v w w',
    p ⟨σ, tape y rest⟩ = .ok (v, w) ∧ w.rng = rest ∧ p' ⟨σ', tape (e y) rest⟩ = .ok (v, w') ∧ w'.rng = rest

end Zksk.Spec
