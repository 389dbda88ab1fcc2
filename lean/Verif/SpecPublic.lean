import Verif.SpecHide

/-! # What a simulator is told -/

namespace Zksk.Spec

variable {E : Type} [AddCommGroup E] [DecidableEq E]

/-- A leaf without anything a verifier would not have: no known values, no flag, no `precommit()`, and no traces of
earlier runs. -/
def publicLeaf : Leaf E → Leaf E
  | .dlrep s => .dlrep { s with secretValues := [], simulated := false }
  | .ext s => .ext ⟨{ s.spec with precommit := raise .generic }, false, .none, none, none⟩

mutual
/-- The statement as somebody makes it who knows no secrets. -/
def publicPart : Stmt E → Stmt E
  | .leaf l => .leaf (publicLeaf l)
  | .and _ subs => .and false (publicPartL subs)
  | .or _ subs => .or false (publicPartL subs)
/-- `publicPart` for lists. -/
def publicPartL : List (Stmt E) → List (Stmt E)
  | [] => []
  | t :: ts => publicPart t :: publicPartL ts
end

mutual
/-- `publicPart` for statements without extended parts. -/
def publicCore : Core E → Core E
  | .leaf s => .leaf { s with secretValues := [], simulated := false }
  | .and _ subs => .and false (publicCoreL subs)
  | .or _ subs => .or false (publicCoreL subs)
/-- `publicCore` for lists. -/
def publicCoreL : List (Core E) → List (Core E)
  | [] => []
  | t :: ts => publicCore t :: publicCoreL ts
end

end Zksk.Spec
