import Verif.SpecProver

/-! # Specification vocabulary for statements with extended parts -/

namespace Zksk.Spec

variable {E : Type} [AddCommGroup E]

/-- Which secrets an extended statement deals with: those whose values its methods look at or depend on,
those to which precommitting assigns, and those that are secrets of the constructed statement.  And which
extended statements are to stay outside of disjunctions. -/
structure Profile (E : Type) where
  reads : ExtSpec E → Sec → Prop
  writes : ExtSpec E → Sec → Prop
  occurs : ExtSpec E → Sec → Prop
  outside : ExtSpec E → Prop := fun _ => False

/-- Some leaf of the statement is related to the secret. -/
inductive AtLeaf (Q : Leaf E → Sec → Prop) : Stmt E → Sec → Prop
  | leaf (l : Leaf E) (x : Sec) (h : Q l x) : AtLeaf Q (.leaf l) x
  | all (b : Bool) (subs : List (Stmt E)) (t : Stmt E) (x : Sec) (ht : t ∈ subs) (h : AtLeaf Q t x) :
      AtLeaf Q (.and b subs) x
  | any (b : Bool) (subs : List (Stmt E)) (t : Stmt E) (x : Sec) (ht : t ∈ subs) (h : AtLeaf Q t x) :
      AtLeaf Q (.or b subs) x

/-- Every leaf has the property, and no composition is empty. -/
inductive EveryLeaf (Q : Leaf E → Prop) : Stmt E → Prop
  | leaf (l : Leaf E) (h : Q l) : EveryLeaf Q (.leaf l)
  | all (b : Bool) (subs : List (Stmt E)) (hne : subs ≠ []) (h : ∀ t ∈ subs, EveryLeaf Q t) :
      EveryLeaf Q (.and b subs)
  | any (b : Bool) (subs : List (Stmt E)) (hne : subs ≠ []) (h : ∀ t ∈ subs, EveryLeaf Q t) :
      EveryLeaf Q (.or b subs)

/-- Every leaf that may be proved has the property: clauses of disjunctions marked as simulated are
exempt, one clause at least must not be marked, and no other composition is marked. -/
inductive ProvedLeaf [DecidableEq E] (Q : Leaf E → Prop) : Stmt E → Prop
  | leaf (l : Leaf E) (h : Q l) : ProvedLeaf Q (.leaf l)
  | all (subs : List (Stmt E)) (h : ∀ t ∈ subs, ProvedLeaf Q t) : ProvedLeaf Q (.and false subs)
  | any (subs : List (Stmt E)) (hex : ∃ t ∈ subs, t.simulated = false)
      (h : ∀ t ∈ subs, t.simulated = false → ProvedLeaf Q t) : ProvedLeaf Q (.or false subs)

/-- The statement has this leaf. -/
inductive HasLeaf {L : Type} (l : L) : Tree L → Prop
  | leaf : HasLeaf l (.leaf l)
  | all (b : Bool) (subs : List (Tree L)) (t : Tree L) (ht : t ∈ subs) (h : HasLeaf l t) : HasLeaf l (.and b subs)
  | any (b : Bool) (subs : List (Tree L)) (t : Tree L) (ht : t ∈ subs) (h : HasLeaf l t) : HasLeaf l (.or b subs)

/-- Extended statements that are to stay outside of disjunctions do so. -/
inductive Placed (F : Profile E) : Stmt E → Prop
  | leaf (l : Leaf E) : Placed F (.leaf l)
  | all (b : Bool) (subs : List (Stmt E)) (h : ∀ t ∈ subs, Placed F t) : Placed F (.and b subs)
  | any (b : Bool) (subs : List (Stmt E)) (h : ∀ e, HasLeaf (.ext e) (.or b subs : Stmt E) → ¬ F.outside e.spec) :
      Placed F (.or b subs)

/-- The secrets a leaf writes. -/
def leafWrites (F : Profile E) : Leaf E → Sec → Prop
  | .dlrep _, _ => False
  | .ext s, x => F.writes s.spec x

/-- The secrets a leaf reads: a representation depends on its secrets and on those whose values it knows. -/
def leafReads (F : Profile E) : Leaf E → Sec → Prop
  | .dlrep s, x => x ∈ s.secretVars ∨ x ∈ s.secretValues.map Prod.fst
  | .ext s, x => F.reads s.spec x

/-- The secrets of a leaf. -/
def leafOccurs (F : Profile E) : Leaf E → Sec → Prop
  | .dlrep s, x => x ∈ s.secretVars
  | .ext s, x => F.occurs s.spec x

/-- No secret is written by two leaves at different places. -/
inductive Separate (F : Profile E) : Stmt E → Prop
  | leaf (l : Leaf E) : Separate F (.leaf l)
  | all (b : Bool) (subs : List (Stmt E)) (h : ∀ t ∈ subs, Separate F t)
      (hd : ∀ (i j : Nat) (t u : Stmt E) (x : Sec), i ≠ j → subs[i]? = some t → subs[j]? = some u →
        AtLeaf (leafWrites F) t x → ¬ AtLeaf (leafWrites F) u x) : Separate F (.and b subs)
  | any (b : Bool) (subs : List (Stmt E)) (h : ∀ t ∈ subs, Separate F t)
      (hd : ∀ (i j : Nat) (t u : Stmt E) (x : Sec), i ≠ j → subs[i]? = some t → subs[j]? = some u →
        AtLeaf (leafWrites F) t x → ¬ AtLeaf (leafWrites F) u x) : Separate F (.or b subs)

/-- Going down from the first statement through conjunctions only one reaches the disjunction `u`; the
list has the other conjuncts passed by. -/
inductive OrIn : Stmt E → Stmt E → List (Stmt E) → Prop
  | here (b : Bool) (subs : List (Stmt E)) : OrIn (.or b subs) (.or b subs) []
  | down (b : Bool) (ls : List (Stmt E)) (t : Stmt E) (rs : List (Stmt E)) (u : Stmt E)
      (rest : List (Stmt E)) (h : OrIn t u rest) : OrIn (.and b (ls ++ t :: rs)) u (ls ++ rest ++ rs)

/-- Secrets of disjunctions have names that do not occur elsewhere in a conjunction around them. -/
inductive Tidy (F : Profile E) (name : Sec → String) : Stmt E → Prop
  | leaf (l : Leaf E) : Tidy F name (.leaf l)
  | all (b : Bool) (subs : List (Stmt E)) (h : ∀ t ∈ subs, Tidy F name t)
      (hp : ∀ u rest, OrIn (.and b subs) u rest → ∀ x, AtLeaf (leafOccurs F) u x → ∀ v ∈ rest, ∀ y,
        AtLeaf (leafOccurs F) v y → name x ≠ name y) : Tidy F name (.and b subs)
  | any (b : Bool) (subs : List (Stmt E)) (h : ∀ t ∈ subs, Tidy F name t) : Tidy F name (.or b subs)

/-- All bases are from groups of order `q`. -/
def OneOrder (q : Nat) (k : Core E) : Prop := ∀ x b, (x, b) ∈ terms k → b.grp.order = q

mutual
/-- The secrets whose values are known to representations of the statement. -/
def knownSecrets : Core E → List Sec
  | .leaf s => s.secretValues.map Prod.fst
  | .and _ subs => knownSecretsL subs
  | .or _ subs => knownSecretsL subs
/-- `knownSecrets` for lists. -/
def knownSecretsL : List (Core E) → List Sec
  | [] => []
  | t :: ts => knownSecrets t ++ knownSecretsL ts
end

/-- In the heap `σ` simulating an extended statement does not fail: it produces a precommitment with
property `Z` from which a sound statement is constructed. -/
def CanSimulate (F : Profile E) (q : Nat) (σ : Store) (Z : Val E → Prop) (sp : ExtSpec E) : Prop :=
  ∀ w : World, w.store = σ → ∃ v w' k, sp.simPrecommit w = .ok (v, w') ∧ w'.store = σ ∧
    sp.construct σ v = .ok k ∧ v.truthy = true ∧ Solid k ∧ OneOrder q k ∧
    (∀ x ∈ secrets k, F.occurs sp x) ∧ Z v

/-- In heaps that look like `σ` proving an extended statement works: precommitting assigns only to the
secrets of the profile and produces a precommitment with property `Z` from which a sound statement is
constructed, and this statement is satisfied by the values that its secrets have then.  The precommitment must
count as true for Python; outside of disjunctions it must be something else than `None`. -/
def CanProve (F : Profile E) (q : Nat) (σ : Store) (d : Dict Int) (Z : Val E → Prop) (sp : ExtSpec E) :
    Prop :=
  ∀ w : World, (∀ x, F.reads sp x ∨ x ∈ d.map Prod.fst → w.store.key x = σ.key x) →
    ∃ v w' k, sp.precommit w = .ok (v, w') ∧ (∀ x, ¬ F.writes sp x → w'.store.key x = w.store.key x) ∧
      w'.store.name = w.store.name ∧ sp.construct w'.store v = .ok k ∧
      (F.outside sp ∧ v ≠ .none ∨ v.truthy = true) ∧ Solid k ∧ Torsion k ∧ OneOrder q k ∧
      (∀ x ∈ secrets k, F.occurs sp x) ∧ (∀ x ∈ knownSecrets k, F.reads sp x) ∧
      Satisfied w'.store d valueOf k ∧ Composable w'.store k ∧ Z v

/-- What is needed of every leaf.  Outside of disjunctions it is not necessary that a statement can be
simulated. -/
def LeafSound (F : Profile E) (q : Nat) (σ : Store) (Z : ExtSpec E → Val E → Prop) : Leaf E → Prop
  | .dlrep s => Solid (.leaf s) ∧ Torsion (.leaf s) ∧ OneOrder q (.leaf s)
  | .ext s => (F.outside s.spec ∨ CanSimulate F q σ (Z s.spec) s.spec) ∧ ∀ x, F.occurs s.spec x → F.reads s.spec x

/-- What is needed of the leaves that may be proved. -/
def LeafTrue (F : Profile E) (q : Nat) (σ : Store) (d : Dict Int) (Z : ExtSpec E → Val E → Prop) :
    Leaf E → Prop
  | .dlrep s => Satisfied σ d valueOf (.leaf s)
  | .ext s => CanProve F q σ d (Z s.spec) s.spec

/-- What is needed for an honest run on the statement `t`, in the heap `σ` with the explicit values `d`.
The secrets that extended statements write belong to one place each: no other leaf depends on them, and
they are not given values explicitly. -/
structure Ready (F : Profile E) [DecidableEq E] (q : Nat) (σ : Store) (d : Dict Int)
    (Z : ExtSpec E → Val E → Prop) (t : Stmt E) : Prop where
  sound : EveryLeaf (LeafSound F q σ Z) t
  holds : ProvedLeaf (LeafTrue F q σ d Z) t
  own : EveryLeaf (fun l => ∀ x, leafReads F l x → AtLeaf (leafWrites F) t x → leafWrites F l x) t
  placed : Placed F t
  separate : Separate F t
  tidy : Tidy F σ.name t
  args : ∀ e ∈ d, ¬ AtLeaf (leafWrites F) t e.1
  uniq : d.Uniq σ
  hashable : ∀ sp s, ¬ Z sp (.str s)

/-- Leaves of a verifier's object: the same representation, or an extended statement of the same class
with the same `validate()`, which in the verifier's heap `σv` constructs the same statement. -/
def LeafFor (σv : Store) : Leaf E → Leaf E → Prop
  | .dlrep a, .dlrep b => a.lhs = b.lhs ∧ a.bases = b.bases ∧ a.secretVars = b.secretVars
  | .ext a, .ext b => a.spec.cls = b.spec.cls ∧ a.spec.validate = b.spec.validate ∧
      ∀ σ v k, b.spec.construct σ v = .ok k → ∃ k', a.spec.construct σv v = .ok k' ∧
        shape k' = shape k ∧ secrets k' = secrets k
  | _, _ => False

/-- A verifier's object for the prover's statement: the same composition, where flags and known values do
not matter. -/
inductive VerifierFor (σv : Store) : Stmt E → Stmt E → Prop
  | leaf (a b : Leaf E) (h : LeafFor σv a b) : VerifierFor σv (.leaf a) (.leaf b)
  | all (b b' : Bool) (ts us : List (Stmt E)) (hlen : ts.length = us.length)
      (h : ∀ (i : Nat) (t u : Stmt E), ts[i]? = some t → us[i]? = some u → VerifierFor σv t u) :
      VerifierFor σv (.and b ts) (.and b' us)
  | any (b b' : Bool) (ts us : List (Stmt E)) (hlen : ts.length = us.length)
      (h : ∀ (i : Nat) (t u : Stmt E), ts[i]? = some t → us[i]? = some u → VerifierFor σv t u) :
      VerifierFor σv (.or b ts) (.or b' us)

/-- Different secrets of the statement have different names. -/
def Named (F : Profile E) (name : Sec → String) (t : Stmt E) : Prop :=
  ∀ x y, AtLeaf (leafOccurs F) t x → AtLeaf (leafOccurs F) t y → name x = name y → x = y

/-- The precommitment of an extended statement passes its `validate()`. -/
def LeafValid : Leaf E → Prop
  | .dlrep _ => True
  | .ext s => s.spec.validate s.precommitment = .ok ()

/-- The precommitment of an extended statement has the property `Z`. -/
def LeafMade (Z : ExtSpec E → Val E → Prop) : Leaf E → Prop
  | .dlrep _ => True
  | .ext s => Z s.spec s.precommitment

/-- The statement has an extended leaf with these methods. -/
def Uses (sp : ExtSpec E) (t : Stmt E) : Prop := ∃ e : Ext E, e.spec = sp ∧ HasLeaf (.ext e) t

end Zksk.Spec
