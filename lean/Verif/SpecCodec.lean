import Verif.Model.Codec
import Verif.SpecStmt

/-! # Specification vocabulary for serialization -/

namespace Zksk.Spec

variable {E : Type}

/-- What is assumed of the external coders. -/
structure Faithful (env : Env E) (cd : Codec E) : Prop where
  decode : ∀ n v, cd.decode n (env.encode v) = .ok (reread n v)
  unpack : ∀ l, cd.unpackb (cd.packb l) = .ok l

mutual
/-- The value contains neither tuples nor points of pairing groups. -/
def Portable : Val E → Prop
  | .pt p => p.grp.strict = true
  | .list l => PortableL l
  | .tuple _ => False
  | .dict l => PortableD l
  | _ => True
/-- `Portable` for lists. -/
def PortableL : List (Val E) → Prop
  | [] => True
  | v :: l => Portable v ∧ PortableL l
/-- `Portable` for dictionaries. -/
def PortableD : List (String × Val E) → Prop
  | [] => True
  | (_, v) :: l => Portable v ∧ PortableD l
end

mutual
/-- The content of a value as far as it is encoded: tuples are like lists, and of the groups of a pair only
the class is recorded. -/
def content : Val E → Val E
  | .pt p => .pt (if p.grp.strict then p else ⟨⟨p.grp.gid % 3, p.grp.order, false⟩, p.val⟩)
  | .list l => .list (contentL l)
  | .tuple l => .list (contentL l)
  | .dict l => .dict (contentD l)
  | .none => .none
  | .int k => .int k
  | .str s => .str s
  | .bytes b => .bytes b
/-- `content` for lists. -/
def contentL : List (Val E) → List (Val E)
  | [] => []
  | v :: l => content v :: contentL l
/-- `content` for dictionaries. -/
def contentD : List (String × Val E) → List (String × Val E)
  | [] => []
  | (k, v) :: l => (k, content v) :: contentD l
end

section
variable [AddCommGroup E]

/-- In the responses `r` to the statement, what is in the place of the list of sub-challenges of a disjunction is
not a tuple. -/
inductive ListedChallenges : Core E → Val E → Prop
  | rep (s : DLRep E) (r : Val E) : ListedChallenges (.leaf s) r
  | all (b : Bool) (subs : List (Core E)) (r : Val E)
      (h : ∀ i t ri, subs[i]? = some t → r.index i = .ok ri → ListedChallenges t ri) :
      ListedChallenges (.and b subs) r
  | any (b : Bool) (subs : List (Core E)) (r : Val E) (hc : ∀ l, r.index 0 ≠ .ok (.tuple l))
      (h : ∀ i t rs ri, subs[i]? = some t → r.index 1 = .ok rs → rs.index i = .ok ri → ListedChallenges t ri) :
      ListedChallenges (.or b subs) r

end

end Zksk.Spec
