import Verif.SpecExt
import Verif.Model.Tutorial

/-! # Specification vocabulary for primitives that only override `construct_stmt` -/

namespace Zksk.Spec

variable {E : Type} [AddCommGroup E] [DecidableEq E]

/-- `u` is a part of the statement, or the whole of it. -/
inductive PartOf (u : Stmt E) : Stmt E → Prop
  | here : PartOf u u
  | all (b : Bool) (subs : List (Stmt E)) (t : Stmt E) (ht : t ∈ subs) (h : PartOf u t) : PartOf u (.and b subs)
  | any (b : Bool) (subs : List (Stmt E)) (t : Stmt E) (ht : t ∈ subs) (h : PartOf u t) : PartOf u (.or b subs)

/-- The class overrides `construct_stmt` and inherits the other methods. -/
def OnlyConstructs (sp : ExtSpec E) : Prop := ∃ cls construct, sp = ExtSpec.onlyConstructs cls construct

/-- The statement uses such a class. -/
def UsesPlain (t : Stmt E) : Prop := ∃ e : Ext E, HasLeaf (.ext e) t ∧ OnlyConstructs e.spec

/-- Such statements assign to no secret, and are to stay outside of disjunctions. -/
def plainProfile : Profile E where
  reads _ _ := True
  writes _ _ := False
  occurs sp x := ∃ σ v k, sp.construct σ v = .ok k ∧ x ∈ secrets k
  outside := OnlyConstructs

/-- A representation over groups of order `q`; or a statement that only constructs something, which, in the heap `σ` with
explicit values `d`, is over groups of order `q`, true, and within the composition rules. -/
def PlainLeaf (q : Nat) (σ : Store) (d : Dict Int) : Leaf E → Prop
  | .dlrep s => Solid (.leaf s) ∧ Torsion (.leaf s) ∧ OneOrder q (.leaf s)
  | .ext e => OnlyConstructs e.spec ∧ ∃ k, e.spec.construct σ (.list []) = .ok k ∧ Solid k ∧ Torsion k ∧ OneOrder q k ∧
      Satisfied σ d valueOf k ∧ Composable σ k

/-- Representations are true. -/
def RepTrue (σ : Store) (d : Dict Int) : Leaf E → Prop
  | .dlrep s => Satisfied σ d valueOf (.leaf s)
  | .ext _ => True

/-- The responses have `y` for the randomizer and `z` for the message. -/
def ElGamalAnswer (r : Val E) (y z : Int) : Prop :=
  ∃ a b, r.index 0 = .ok a ∧ a.index 0 = .ok (.int y) ∧ r.index 1 = .ok b ∧ b.index 0 = .ok (.int y) ∧
    b.index 1 = .ok (.int z)

/-- What is proved about an ElGamal ciphertext: it is the encryption of `m` with the randomness `r`. -/
def Encrypts (s : ElGamal E) (r m : Int) : Prop :=
  s.c1.val = r • s.g.val ∧ s.c2.val = r • s.h.val + m • s.g.val

end Zksk.Spec
