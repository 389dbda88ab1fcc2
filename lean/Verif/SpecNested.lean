import Verif.Model.Nested

/-! # Vocabulary for extended statements that construct extended statements -/

namespace Zksk.Spec

variable {E : Type} [AddCommGroup E] [DecidableEq E]

/-- `l` is one of the leaves of the composition. -/
inductive Part {L : Type} : Tree L → L → Prop
  | leaf (l : L) : Part (.leaf l) l
  | and {s : Bool} {subs : List (Tree L)} {t : Tree L} {l : L} : t ∈ subs → Part t l → Part (.and s subs) l
  | or {s : Bool} {subs : List (Tree L)} {t : Tree L} {l : L} : t ∈ subs → Part t l → Part (.or s subs) l

/-- Whatever precommitment it is given, the statement constructs (if anything) a composition with an
extended part. -/
def Nests (s : Outer E (Leaf E)) : Prop :=
  ∀ σ v u, s.spec.construct σ v = .ok u → ∃ e, Part u (.ext e)

/-- The same, and the extended part has just been made: it has no constructed statement itself. -/
def NestsNew (s : Outer E (Leaf E)) : Prop :=
  ∀ σ v u, s.spec.construct σ v = .ok u → ∃ e, Part u (.ext e) ∧ e.constructed = none

mutual
/-- The same composition with every leaf replaced. -/
def relabel {L L' : Type} (f : L → L') : Tree L → Tree L'
  | .leaf l => .leaf (f l)
  | .and s subs => .and s (relabelL f subs)
  | .or s subs => .or s (relabelL f subs)
/-- `relabel` for lists. -/
def relabelL {L L' : Type} (f : L → L') : List (Tree L) → List (Tree L')
  | [] => []
  | t :: ts => relabel f t :: relabelL f ts
end

/-- An extended statement as one of `Model/Nested`. -/
abbrev outerOf (s : Ext E) : Outer E (Leaf E) :=
  { spec :=
      { cls := s.spec.cls
        construct := fun σ v => (s.spec.construct σ v).map (relabel Leaf.dlrep)
        validate := s.spec.validate
        precommit := s.spec.precommit
        simPrecommit := s.spec.simPrecommit }
    simulated := s.simulated
    precommitment := s.precommitment
    constructed := s.constructed.map (relabel Leaf.dlrep)
    verifier := s.verifier.map (relabel Leaf.dlrep) }

/-- A leaf of `Model/Ext` as a leaf of `Model/Nested`: an extended statement that constructs a
composition of representations is one that constructs a composition of any leaves. -/
def asNested : Leaf E → NLeaf E (Leaf E)
  | .dlrep s => .base (.dlrep s)
  | .ext s => .outer (outerOf s)

mutual
/-- The same prover with every leaf replaced. -/
def relabelP {L L' P P' : Type} (f : L → L') (g : P → P') : PTree E L P → PTree E L' P'
  | .leaf p => .leaf (g p)
  | .and s subs => .and s (relabelPL f g subs)
  | .or s i stmts sub sims => .or s i (relabelL f stmts) (relabelP f g sub) sims
/-- `relabelP` for lists. -/
def relabelPL {L L' P P' : Type} (f : L → L') (g : P → P') : List (PTree E L P) → List (PTree E L' P')
  | [] => []
  | p :: ps => relabelP f g p :: relabelPL f g ps
end

/-- The prover of an extended statement as one of `Model/Nested`. -/
def proverOf : LeafProver E → NLeafProver E (Leaf E) (LeafProver E)
  | .dlrep p => .base (.dlrep p)
  | .ext p => .outer
    { stmt := outerOf p.stmt
      secretValues := p.secretValues
      constructed := p.constructed.map (relabelP Leaf.dlrep LeafProver.dlrep) }

end Zksk.Spec
