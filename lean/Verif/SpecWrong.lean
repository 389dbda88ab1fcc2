import Verif.SpecProver

/-! # Specification vocabulary: provers that do not know a witness -/

namespace Zksk.Spec

variable {E : Type} [AddCommGroup E]

section
variable {L P : Type}

mutual
/-- The leaf provers that are really run, each with the challenge that it answers when the whole prover
is asked `c`: outside of disjunctions the challenge itself; in the clause of a disjunction that is
really proved the negative of (the sum of the challenges of the simulated clauses less the challenge)
modulo 2^128. -/
def queried : PTree E L P → Int → List (P × Int)
  | .leaf p, c => [(p, c)]
  | .and _ subs, c => queriedL subs c
  | .or _ _ _ sub sims, c => queried sub (-(((sims.map Sim.challenge).sum - c) % 2 ^ 128))
/-- `queried` for lists. -/
def queriedL : List (PTree E L P) → Int → List (P × Int)
  | [], _ => []
  | p :: ps, c => queried p c ++ queriedL ps c
end
end

mutual
/-- The representations that a statement is composed of, in order. -/
def reps : Core E → List (DLRep E)
  | .leaf s => [s]
  | .and _ subs => repsL subs
  | .or _ subs => repsL subs
/-- `reps` for lists. -/
def repsL : List (Core E) → List (DLRep E)
  | [] => []
  | t :: ts => reps t ++ repsL ts
end

/-- How far the values `X` of the secrets miss the left-hand side of a representation. -/
def miss (σ : Store) (s : DLRep E) (X : Key → Int) : E :=
  s.lhs.val - (List.zipWith (fun x b => X (σ.key x) • b.val) s.secretVars s.bases).sum

end Zksk.Spec
