import Verif.SpecExt
import Verif.Model.NotEqual
import Verif.Model.Range
import Verif.Model.BBS

/-!
# Secret objects of one's own

Prover and verifier are different processes: the verifier builds the statement anew, with `Secret` objects of its
own.  These definitions say that two statements are the same up to which `Secret` objects are used, `ρ x` being used
in one where the other has `x`.  No function of the model is needed to say this.
-/

namespace Zksk.Spec

variable {E : Type} [AddCommGroup E] [DecidableEq E]

/-- The heap `σ` seen through `ρ` and `f`: secret `x` has the value that `ρ x` has in `σ`, and the name that `f` makes of
the name that `ρ x` has in `σ`. -/
def seenThrough (ρ : Sec → Sec) (f : String → String) (σ : Store) : Store :=
  ⟨fun x => f (σ.name (ρ x)), fun x => σ.value (ρ x)⟩

/-- Two compositions of the same form whose leaves are related by `R`; flags do not matter. -/
inductive Alike {L L' : Type} (R : L → L' → Prop) : Tree L → Tree L' → Prop
  | leaf (a : L) (b : L') (h : R a b) : Alike R (.leaf a) (.leaf b)
  | all (b b' : Bool) (ts : List (Tree L)) (us : List (Tree L')) (hlen : ts.length = us.length)
      (h : ∀ (i : Nat) (t : Tree L) (u : Tree L'), ts[i]? = some t → us[i]? = some u → Alike R t u) :
      Alike R (.and b ts) (.and b' us)
  | any (b b' : Bool) (ts : List (Tree L)) (us : List (Tree L')) (hlen : ts.length = us.length)
      (h : ∀ (i : Nat) (t : Tree L) (u : Tree L'), ts[i]? = some t → us[i]? = some u → Alike R t u) :
      Alike R (.or b ts) (.or b' us)

/-- The same representation, with the secrets `ρ x`; known values and flags do not matter. -/
def RepOwn (ρ : Sec → Sec) (a b : DLRep E) : Prop :=
  a.lhs = b.lhs ∧ a.bases = b.bases ∧ a.secretVars = b.secretVars.map ρ

/-- Two computations that raise the same exception, or return related results. -/
def SameOutcome {α β : Type} (R : α → β → Prop) : Except Err α → Except Err β → Prop
  | .ok a, .ok b => R a b
  | .error e, .error e' => e = e'
  | _, _ => False

/-- Two values that may be `None`. -/
def SameOption {α β : Type} (R : α → β → Prop) : Option α → Option β → Prop
  | some a, some b => R a b
  | none, none => True
  | _, _ => False

/-- The same leaf with secrets `ρ x`: the first one judged in heap `σ`, the second one in the heap seen through `ρ`, `f`.
For extended statements: of the same class, with the same `validate()`, and `construct_stmt()` does the same with
every precommitment; and if they have been used before, with the same precommitment. -/
def LeafOwn (ρ : Sec → Sec) (f : String → String) (σ : Store) : Leaf E → Leaf E → Prop
  | .dlrep a, .dlrep b => RepOwn ρ a b
  | .ext a, .ext b => a.spec.cls = b.spec.cls ∧ a.spec.validate = b.spec.validate ∧
      (∀ v, SameOutcome (Alike (RepOwn ρ)) (a.spec.construct σ v) (b.spec.construct (seenThrough ρ f σ) v)) ∧
      a.precommitment = b.precommitment ∧ SameOption (Alike (RepOwn ρ)) a.constructed b.constructed
  | _, _ => False

/-- The objects of the library: a verifier's object for the prover's object, with secrets `ρ x`. -/
inductive LibOwn (ρ : Sec → Sec) : Leaf E → Leaf E → Prop
  | rep (a b : DLRep E) (h : RepOwn ρ a b) : LibOwn ρ (.dlrep a) (.dlrep b)
  | notEqual (s s' : NotEqual E) (a b : Ext E) (ha : a = ⟨s'.spec, false, .none, none, none⟩) (hb : b.spec = s.spec)
      (h0 : s'.lhs0 = s.lhs0) (h1 : s'.lhs1 = s.lhs1) (hg : s'.g = s.g) (hh : s'.h = s.h) (hbind : s'.bind = s.bind)
      (hx : s'.x = ρ s.x) (hα : s'.alpha = ρ s.alpha) (hβ : s'.beta = ρ s.beta) : LibOwn ρ (.ext a) (.ext b)
  | range (s s' : PowerTwo E) (a b : Ext E) (ha : a = ⟨s'.spec, false, .none, none, none⟩) (hb : b.spec = s.spec)
      (hcom : s'.com = s.com) (hg : s'.g = s.g) (hh : s'.h = s.h) (hr : s'.rands = s.rands.map ρ)
      (hv : s'.isProver = false) : LibOwn ρ (.ext a) (.ext b)
  | bbs (s s' : BBS E) (gen gen' : E) (a b : Ext E) (ha : a = ⟨s'.spec gen', false, .none, none, none⟩)
      (hb : b.spec = s.spec gen) (hP : s'.P = s.P) (hpk : s'.pk = s.pk) (hvars : s'.vars = s.vars.map ρ)
      (h1 : s'.r1 = ρ s.r1) (h2 : s'.r2 = ρ s.r2) (hd1 : s'.delta1 = ρ s.delta1) (hd2 : s'.delta2 = ρ s.delta2) :
      LibOwn ρ (.ext a) (.ext b)

end Zksk.Spec
