import Verif.Model.Interactive

/-! # One extended statement object at several places of a composition

`AndProofStmt` and `OrProofStmt` make shallow copies of their arguments
(`zksk/composition.py:414-417,720-723`).  A statement that is used at several places is therefore
copied, but the copies of a *composition* have one list of subproofs: with `c = And(p, q)`, the two
clauses of `c | c` are different objects that contain the same object (a copy of) `p`.
`Verif.Model.Tree` treats all places as independent, which is exact for `DLRep` (its verifier writes
nothing into the statement) but not for an extended statement: `_precommitment` and
`_constructed_stmt` are attributes of the object (`zksk/extended.py:137-140`), so what a verifier
stores for one place is seen at all places of the object.  Here every leaf carries the identity of
its object. -/

namespace Zksk

variable {E : Type} [AddCommGroup E] [DecidableEq E]

/-- A leaf together with the identity (Python's `id`) of the statement object found there. -/
structure Placed (E : Type) where
  obj : Nat
  leaf : Leaf E

/-- The operations of a place are those of its object. -/
instance : StmtOps E (Placed E) where
  secretVars p := StmtOps.secretVars p.leaf
  bases p := StmtOps.bases p.leaf
  simulated p := StmtOps.simulated p.leaf
  setSimulated v p := ⟨p.obj, StmtOps.setSimulated v p.leaf⟩
  proofId σ m p := StmtOps.proofId σ m p.leaf
  freshVerifier p := ⟨p.obj, StmtOps.freshVerifier p.leaf⟩
  process σ p v := (StmtOps.process σ p.leaf v).map (fun l => ⟨p.obj, l⟩)
  fullValidate p := StmtOps.fullValidate p.leaf
  consistency σ p r d := StmtOps.consistency σ p.leaf r d
  recompute p c r := StmtOps.recompute p.leaf c r
  prepareSim p := do pure ⟨p.obj, ← StmtOps.prepareSim p.leaf⟩
  simulate p d c := StmtOps.simulate p.leaf d c
  ignoresHash p := StmtOps.ignoresHash p.leaf

namespace Alias

/-- `copy.copy(p)` (`zksk/composition.py:417,723`): a leaf becomes a new object, here with the
identity `o`; the copy of a composition has the list of subproofs of the original. -/
def copyOf (o : Nat) : Tree (Placed E) → Tree (Placed E)
  | .leaf p => .leaf ⟨o, p.leaf⟩
  | .and s subs => .and s subs
  | .or s subs => .or s subs

mutual
/-- The places of a statement, from left to right: the order in which `process_precommitment`
visits them (`zksk/composition.py:673-684,940-947`). -/
def places : Tree (Placed E) → List (Placed E)
  | .leaf p => [p]
  | .and _ subs => placesL subs
  | .or _ subs => placesL subs
/-- The places of a list of statements. -/
def placesL : List (Tree (Placed E)) → List (Placed E)
  | [] => []
  | t :: ts => places t ++ placesL ts
end

/-- What the object `o` holds once every place has been visited: the attributes written at the last
place of `o` that processed a precommitment (`zksk/extended.py:219-225` calls
`full_construct_stmt`, `:137-140`); a place whose verifier has no `constructed_verifier` did not
write. -/
def written (o : Nat) : List (Placed E) → Option (Ext E)
  | [] => none
  | p :: ps =>
    match written o ps with
    | some s => some s
    | none =>
      match p.leaf with
      | .dlrep _ => none
      | .ext s => if p.obj = o ∧ s.verifier.isSome then some s else none

/-- A place as seen after the visit: `_precommitment` and `_constructed_stmt` are those of the
object, `constructed_verifier` belongs to the `ExtendedVerifier` of this place
(`zksk/extended.py:225`). -/
def view (all : List (Placed E)) (p : Placed E) : Placed E :=
  match p.leaf with
  | .dlrep _ => p
  | .ext s =>
    match written p.obj all with
    | none => p
    | some w => ⟨p.obj, .ext { s with precommitment := w.precommitment, constructed := w.constructed }⟩

mutual
/-- Replace every place. -/
def mapPlaces (f : Placed E → Placed E) : Tree (Placed E) → Tree (Placed E)
  | .leaf p => .leaf (f p)
  | .and s subs => .and s (mapPlacesL f subs)
  | .or s subs => .or s (mapPlacesL f subs)
/-- Replace every place of a list of statements. -/
def mapPlacesL (f : Placed E → Placed E) : List (Tree (Placed E)) → List (Tree (Placed E))
  | [] => []
  | t :: ts => mapPlaces f t :: mapPlacesL f ts
end

/-- The statement as the verifier sees it after `process_precommitment`.  Processing a place reads
only the class of the object and the precommitment (`zksk/extended.py:137-140`), so looking up the
shared attributes after all places have been visited is exact. -/
def settle (t : Tree (Placed E)) : Tree (Placed E) := mapPlaces (view (places t)) t

/-- `stmt.verify(nizk, message)` (`zksk/composition.py:200-205`, `zksk/base.py:233-263`) of a composition
in which objects may occur several times. -/
def verify (env : Env E) (σ : Store) (t : Tree (Placed E)) (nizk : NIZK E) (message : String) :
    Except Err Bool := do
  let t1 ← digestPrecommitment σ (Tree.freshVerifier t) nizk.precommitment
  let t2 := settle t1
  let id ← checkStatement env σ t2 nizk.stmtHash
  preVerification σ t2 nizk.responses
  let com ← Tree.recompute t2 nizk.challenge nizk.responses
  let c ← env.fiatShamir id nizk.precommitment com message
  .ok (decide (nizk.challenge = c))

/-- `get_verifier()`, then `process_precommitment(precommitment)`, as in an interactive conversation
(`zksk/utils/debug.py:19-39`): the statement with which `Verifier.verify` is run later. -/
def receive (σ : Store) (t : Tree (Placed E)) (v : Val E) : Except Err (Tree (Placed E)) := do
  let t1 ← Tree.process σ (Tree.freshVerifier t) v
  .ok (settle t1)

end Alias
end Zksk
