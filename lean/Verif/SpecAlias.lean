import Verif.Model.AliasProver
import Verif.Model.NotEqual

/-! # Vocabulary for compositions that contain one statement object several times -/

namespace Zksk.Spec

variable {E : Type} [AddCommGroup E] [DecidableEq E]

open Alias

mutual
/-- The same composition with a separate object at every place (a copy, over the same `Secret`
objects). -/
def separate : Tree (Placed E) → Stmt E
  | .leaf p => .leaf p.leaf
  | .and s subs => .and s (separateL subs)
  | .or s subs => .or s (separateL subs)
/-- A list of compositions with a separate object at every place. -/
def separateL : List (Tree (Placed E)) → List (Stmt E)
  | [] => []
  | t :: ts => separate t :: separateL ts
end

/-- The place holds an extended statement. -/
def Extended (p : Placed E) : Prop := match p.leaf with
  | .dlrep _ => False
  | .ext _ => True

instance (p : Placed E) : Decidable (Extended p) := by
  unfold Extended; cases p.leaf <;> infer_instance

/-- No extended statement object occurs at two places.  `DLRep` objects may. -/
def Unshared (t : Tree (Placed E)) : Prop :=
  (((places t).filter (fun p => decide (Extended p))).map Placed.obj).Nodup

mutual
/-- The statement objects at the leaves of a composition, from left to right. -/
def objects : Tree Nat → List Nat
  | .leaf o => [o]
  | .and _ subs => objectsL subs
  | .or _ subs => objectsL subs
/-- The statement objects at the leaves of a list of compositions. -/
def objectsL : List (Tree Nat) → List Nat
  | [] => []
  | t :: ts => objects t ++ objectsL ts
end

mutual
/-- The composition with only the identities of the objects at its leaves. -/
def identities : Tree (Placed E) → Tree Nat
  | .leaf p => .leaf p.obj
  | .and s subs => .and s (identitiesL subs)
  | .or s subs => .or s (identitiesL subs)
/-- The same for a list of compositions. -/
def identitiesL : List (Tree (Placed E)) → List (Tree Nat)
  | [] => []
  | t :: ts => identities t :: identitiesL ts
end

/-- The objects at the places of `t` hold what is written there. -/
def Hold (h : Objs E) (t : Tree (Placed E)) : Prop := ∀ p ∈ places t, h p.obj = p.leaf

/-- An expression that builds a statement from leaf statement objects with `AndProofStmt(...)` and
`OrProofStmt(...)`.  A leaf object may be used any number of times; every composition is used where
it is made. -/
inductive Build where
  | obj (i : Nat)
  | and (subs : List Build)
  | or (subs : List Build)

mutual
/-- The statement that the expression builds, with the identities of the objects in it.  `n` is the
first identity that is not in use; the second component is the first one not in use afterwards. -/
def Build.make (objs : Nat → Leaf E) : Build → Nat → Tree (Placed E) × Nat
  | .obj i, n => (.leaf ⟨i, objs i⟩, n)
  | .and subs, n => (.and false (Build.makeL objs subs n).1, (Build.makeL objs subs n).2)
  | .or subs, n => (.or false (Build.makeL objs subs n).1, (Build.makeL objs subs n).2)
/-- The copies that a composition makes of its arguments. -/
def Build.makeL (objs : Nat → Leaf E) : List Build → Nat → List (Tree (Placed E)) × Nat
  | [], n => ([], n)
  | b :: bs, n =>
    let (t, n1) := b.make objs n
    let (ts, n2) := Build.makeL objs bs (n1 + 1)
    (copyOf n1 t :: ts, n2)
end

/-- `AndProofStmt(s, d1, d2, ...)`, where the object `s` has identity 0 and each `d` is given with its
identity. -/
def conjunction (s : NotEqual E) (ds : List (Nat × DLRep E)) : Tree (Placed E) :=
  .and false (.leaf ⟨0, .ext ⟨s.spec, false, .none, none, none⟩⟩ :: ds.map fun d => .leaf ⟨d.1, .dlrep d.2⟩)

/-- `c | c | ... | c` or `c & c & ... & c` with `n` times the conjunction `c`, as one composition:
copies of `c`, which have the list of subproofs of `c`. -/
def repeated (isOr : Bool) (s : NotEqual E) (ds : List (Nat × DLRep E)) (n : Nat) : Tree (Placed E) :=
  let subs := List.replicate n (copyOf 0 (conjunction s ds))
  if isOr then .or false subs else .and false subs

/-- The precommitments for `repeated`: `v` for `s` and `None` for every `d`, in each copy. -/
def precommitments (ds : List (Nat × DLRep E)) (vs : List (Pt E)) : Val E :=
  .list (vs.map fun v => .list (.pt v :: ds.map fun _ => .none))

/-- The verdict of a verifier for one conversation, when the places share the object. -/
def sharedVerdict (σ : Store) (t : Tree (Placed E)) (v com : Val E) (c : Int) (r : Val E) : Except Err Bool := do
  let t1 ← receive σ t v
  verifyResponse σ t1 com c r

/-- The verdict of a verifier for one conversation, when every place has an object of its own. -/
def separateVerdict (σ : Store) (t : Tree (Placed E)) (v com : Val E) (c : Int) (r : Val E) : Except Err Bool := do
  let t1 ← Tree.process σ (Tree.freshVerifier (separate t)) v
  verifyResponse σ t1 com c r

end Zksk.Spec
