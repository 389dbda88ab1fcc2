import Verif.SpecStmt
import Verif.Model.Prover

/-! # Specification vocabulary for provers -/

namespace Zksk.Spec

variable {E L P : Type}

/-- The value a representation gets for secret `x` when proving with dictionary `d`: what the dictionary
says, otherwise what was known when the statement was built. -/
def given (σ : Store) (d : Dict Int) (s : DLRep E) (x : Sec) : Option Int :=
  (Dict.get? σ d x).or (Dict.get? σ s.secretValues x)

/-- Not marked as simulated. -/
def unmarked : Core E → Prop
  | .leaf s => s.simulated = false
  | .and b _ => b = false
  | .or b _ => b = false

/-- All secrets are given the values `X`, which make the statement true; clauses of disjunctions marked
as simulated are exempt, one clause at least must not be marked, and no other composition is marked. -/
inductive Satisfied [AddCommGroup E] (σ : Store) (d : Dict Int) (X : Key → Int) : Core E → Prop
  | rep (s : DLRep E) (hv : ∀ x ∈ s.secretVars, given σ d s x = some (X (σ.key x)))
      (h : Holds σ (.leaf s) X) : Satisfied σ d X (.leaf s)
  | all (subs : List (Core E)) (h : ∀ t ∈ subs, Satisfied σ d X t) : Satisfied σ d X (.and false subs)
  | any (subs : List (Core E)) (hex : ∃ t ∈ subs, unmarked t)
      (h : ∀ t ∈ subs, unmarked t → Satisfied σ d X t) : Satisfied σ d X (.or false subs)

/-- The heap that provers see: compositions store the dictionary into the secrets first. -/
def heapFor (σ : Store) (d : Dict Int) : Core E → Store
  | .leaf _ => σ
  | _ => ⟨σ.name, fun x => (d.foldl (fun o kv => if kv.1 = x then some kv.2 else o) none).or (σ.value x)⟩

mutual
/-- The provers of leaves that are really run (not simulated) by a prover. -/
def active : PTree E L P → List P
  | .leaf p => [p]
  | .and _ subs => activeL subs
  | .or _ _ _ sub _ => active sub
/-- `active` for lists. -/
def activeL : List (PTree E L P) → List P
  | [] => []
  | p :: ps => active p ++ activeL ps
end

/-- A statement is not provable from the values given: a representation with a secret without value; a
composition marked as simulated; a disjunction all of whose unmarked clauses are not provable. -/
inductive Declines (σ : Store) (d : Dict Int) : Core E → Prop
  | rep (s : DLRep E) (x : Sec) (hx : x ∈ s.secretVars) (h : given σ d s x = none) :
      Declines σ d (.leaf s)
  | and (subs : List (Core E)) : Declines σ d (.and true subs)
  | marked (subs : List (Core E)) : Declines σ d (.or true subs)
  | any (subs : List (Core E)) (h : ∀ t ∈ subs, unmarked t → Declines σ d t) :
      Declines σ d (.or false subs)

/-- Disjunctions nested in any way over representations, without conjunctions. -/
inductive AndFree : Core E → Prop
  | rep (s : DLRep E) : AndFree (.leaf s)
  | any (b : Bool) (subs : List (Core E)) (h : ∀ t ∈ subs, AndFree t) : AndFree (.or b subs)

/-- Conjunctions nested in any way over representations, without disjunctions. -/
inductive OrFree : Core E → Prop
  | rep (s : DLRep E) : OrFree (.leaf s)
  | all (b : Bool) (subs : List (Core E)) (h : ∀ t ∈ subs, OrFree t) : OrFree (.and b subs)

mutual
/-- The precommitment of a simulated transcript of a statement without extended parts: no information
besides the shape of the statement. -/
def plainPrecommitment : Core E → Val E
  | .leaf _ => .none
  | .and _ subs => .list (plainPrecommitmentL subs)
  | .or _ subs => .list (plainPrecommitmentL subs)
/-- `plainPrecommitment` for lists. -/
def plainPrecommitmentL : List (Core E) → List (Val E)
  | [] => []
  | t :: ts => plainPrecommitment t :: plainPrecommitmentL ts
end

end Zksk.Spec
