import Verif.SpecProver
import Verif.Model.ObjectsFail

/-! # Specification vocabulary for statement objects that share parts -/

namespace Zksk.Spec

variable {E : Type}

/-- One gets from the object `r` to the object `q` by going to parts of compositions. -/
inductive Reaches (h : Objects E) : Nat → Nat → Prop
  | self (r : Nat) : Reaches h r r
  | all (r l : Nat) (b : Bool) (rs : List Nat) (p q : Nat) (ho : h.objs[r]? = some (.all l b))
      (hl : h.lists[l]? = some rs) (hp : p ∈ rs) (hq : Reaches h p q) : Reaches h r q
  | any (r l : Nat) (b : Bool) (rs : List Nat) (p q : Nat) (ho : h.objs[r]? = some (.any l b))
      (hl : h.lists[l]? = some rs) (hp : p ∈ rs) (hq : Reaches h p q) : Reaches h r q

/-- The two objects have no part in common. -/
def NoCommonPart (h : Objects E) (a b : Nat) : Prop := ∀ q, Reaches h a q → ¬ Reaches h b q

mutual
/-- The dictionaries of values that a prover object refers to. -/
def dictsOf : HProver E → List Nat
  | .rep _ v _ => [v]
  | .all _ subs => dictsOfL subs
  | .any _ _ sub _ => dictsOf sub
/-- `dictsOf` for lists. -/
def dictsOfL : List (HProver E) → List Nat
  | [] => []
  | p :: ps => dictsOf p ++ dictsOfL ps
end

variable [AddCommGroup E] [DecidableEq E]

/-- Calls on statement objects, whether they return or raise, and the objects afterwards.  The first list has the object whose
`get_prover` or `prove` is called, the second one the object whose `set_simulated` or `simulate` is called.
Constructors and operators only read their arguments. -/
inductive Call (h : Objects E) : List Nat → List Nat → Objects E → Prop
  | getProver (r : Nat) (d : Dict Int) (w w' : World) (p : Option (HProver E)) (h' : Objects E)
      (hr : h.proverOf r d w = .ok ((p, h'), w')) : Call h [r] [] h'
  | prove (env : Env E) (r : Nat) (d : Dict Int) (msg : String) (w w' : World) (π : NIZK E) (h' : Objects E)
      (hr : h.prove env r d msg w = .ok ((π, h'), w')) : Call h [r] [] h'
  | simulate (env : Env E) (r : Nat) (c : Option Int) (w w' : World) (a : Sim E × List UInt8) (h' : Objects E)
      (hr : h.simulate env r c w = .ok ((a, h'), w')) : Call h [] [r] h'
  | getProverRaises (r : Nat) (d : Dict Int) (w w' : World) (x : Err) (h' : Objects E)
      (hr : Objects.tryProver r d (h, w) = (.error x, (h', w'))) : Call h [r] [] h'
  | proveRaises (env : Env E) (r : Nat) (d : Dict Int) (msg : String) (w w' : World) (x : Err) (h' : Objects E)
      (hr : Objects.tryProve env r d msg (h, w) = (.error x, (h', w'))) : Call h [r] [] h'
  | simulateRaises (env : Env E) (r : Nat) (c : Option Int) (w w' : World) (x : Err) (h' : Objects E)
      (hr : Objects.trySimulate env r c (h, w) = (.error x, (h', w'))) : Call h [] [r] h'
  | setSimulated (r : Nat) (b : Bool) : Call h [] [r] (h.setSimulated r b)
  | rep (σ : Store) (lhs : Pt E) (secrets : List Sec) (bases : List (Pt E)) (b : Bool) (r : Nat) (h' : Objects E)
      (hr : h.newRep σ lhs secrets bases b = .ok (r, h')) : Call h [] [] h'
  | all (rs : List Nat) (r : Nat) (h' : Objects E) (hr : h.newAll rs = .ok (r, h')) : Call h [] [] h'
  | any (rs : List Nat) (r : Nat) (h' : Objects E) (hr : h.newAny rs = .ok (r, h')) : Call h [] [] h'
  | opAnd (a b r : Nat) (h' : Objects E) (hr : h.opAnd a b = .ok (r, h')) : Call h [] [] h'
  | opOr (a b r : Nat) (h' : Objects E) (hr : h.opOr a b = .ok (r, h')) : Call h [] [] h'

/-- Sequences of calls.  At the moment of the call, `get_prover` and `prove` are called on objects with property
`P`, and `set_simulated` and `simulate` on objects with property `Q`. -/
inductive Calls (P Q : Objects E → Nat → Prop) : Objects E → Objects E → Prop
  | none (h : Objects E) : Calls P Q h h
  | more (h h1 h2 : Objects E) (rs ms : List Nat) (hc : Call h rs ms h1) (hP : ∀ r ∈ rs, P h r) (hQ : ∀ m ∈ ms, Q h m)
      (hs : Calls P Q h1 h2) : Calls P Q h h2

/-- Attempts to prove the statement object `r`, or to get a prover of it, all of which fail: they raise, or there is
no prover.  The list has the dictionaries that were given; then objects and secrets before and after. -/
inductive FailedAttempts (r : Nat) : List (Dict Int) → Objects E × World → Objects E × World → Prop
  | none (s : Objects E × World) : FailedAttempts r [] s s
  | prove (env : Env E) (d : Dict Int) (ds : List (Dict Int)) (msg : String) (x : Err) (s s1 s2 : Objects E × World)
      (he : Objects.tryProve env r d msg s = (.error x, s1)) (hs : FailedAttempts r ds s1 s2) : FailedAttempts r (d :: ds) s s2
  | raises (d : Dict Int) (ds : List (Dict Int)) (x : Err) (s s1 s2 : Objects E × World)
      (he : Objects.tryProver r d s = (.error x, s1)) (hs : FailedAttempts r ds s1 s2) : FailedAttempts r (d :: ds) s s2
  | declines (d : Dict Int) (ds : List (Dict Int)) (s s1 s2 : Objects E × World)
      (he : Objects.tryProver r d s = (.ok .none, s1)) (hs : FailedAttempts r ds s1 s2) : FailedAttempts r (d :: ds) s s2

/-- The dictionary has a value for every secret, clauses marked as simulated being exempt. -/
inductive Supplied (σ : Store) (d : Dict Int) : Core E → Prop
  | rep (s : DLRep E) (h : ∀ x ∈ s.secretVars, (Dict.get? σ d x).isSome) : Supplied σ d (.leaf s)
  | all (b : Bool) (subs : List (Core E)) (h : ∀ t ∈ subs, Supplied σ d t) : Supplied σ d (.and b subs)
  | any (b : Bool) (subs : List (Core E)) (h : ∀ t ∈ subs, unmarked t → Supplied σ d t) : Supplied σ d (.or b subs)

end Zksk.Spec
