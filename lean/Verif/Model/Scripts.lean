import Verif.Model.Interactive
import Verif.Model.Expr

/-! # The example scripts (`examples/*.py`) as programs

The scripts that define primitives (`primitive_*.py`) are in `Verif/Model/Tutorial.lean`.  Simplifications: group, points
and the addresses of the `Secret` objects are parameters; the names of secrets, which `Secret()` draws at random
(`zksk/expr.py:100-108`), are those of the initial heap. -/

namespace Zksk

variable {E : Type} [AddCommGroup E] [DecidableEq E]

/-- `assert b`.  Simplification: `AssertionError` is the exception `generic` of the model. -/
def pyAssert (b : Bool) : PM Unit := if b then pure () else raise .generic

/-- `s = Secret(value)` (`zksk/expr.py:100-108`) for a new object at the address `s`. -/
def newSecret (s : Sec) (v : Option Int) : PM Unit := do
  let σ ← getStore
  setStore { σ with value := fun y => if y = s then v else σ.value y }

/-- `a * p + b * q` for numbers `a`, `b`. -/
def comb2 (a : Int) (p : Pt E) (b : Int) (q : Pt E) : Except Err (Pt E) := (Pt.smul a p).add (Pt.smul b q)

/-- `DLRep(lhs, x * g, simulated)`: one new expression. -/
def scriptRep1 (lhs : Pt E) (x : Sec) (g : Pt E) (simulated : Bool) : PM (Core E) := do
  let σ ← getStore
  let (e, h) ← liftE (newExpr [] (.secret x) g)
  let s ← liftE (dlrepOf σ h lhs (.expr e) simulated)
  pure (.leaf s)

/-- `DLRep(lhs, x * g + y * h)`: two new expressions, the second is added to the first. -/
def scriptRep2 (lhs : Pt E) (x : Sec) (g : Pt E) (y : Sec) (h : Pt E) : PM (Core E) := do
  let σ ← getStore
  let (e, h1) ← liftE (newExpr [] (.secret x) g)
  let (f, h2) ← liftE (newExpr h1 (.secret y) h)
  let (r, h3) ← liftE (addExpr h2 e (.expr f))
  let s ← liftE (dlrepOf σ h3 lhs (.expr r) false)
  pure (.leaf s)

/-- The interaction of the scripts (`examples/andproof.py:48-53`, `examples/orproof.py:54-59`,
`examples/simple_dlrep.py:32-37`, `examples/two_level_proof.py:25-30`): `get_prover(d)`, `get_verifier()`, `commit()`,
`send_challenge(commitment)`, `compute_response(challenge)`, and the value of `verifier.verify(response)`.  There is no
call of `precommit()`; prover and verifier share the statement and the heap.  `get_prover` may return `None`, which has
no method `commit`.  Returns the statement object, too, which `get_prover` may have changed. -/
def interact (env : Env E) (t : Core E) (d : Dict Int) : PM (Bool × Core E) := do
  match ← (PTree.getProver t d : PM (Option (CoreProver E) × Core E)) with
  | (none, _) => raise .attributeError
  | (some p, t1) => do
    let tv := Tree.freshVerifier t1
    let ((h, com), p1) ← PTree.commit env p
    let σ1 ← getStore
    let c ← sendChallenge env σ1 tv h
    let r ← PTree.computeResponse p1 c
    let σ2 ← getStore
    let b ← liftE (verifyResponse σ2 tv com c r)
    pure (b, t1)

open Classical in
/-- `examples/andproof.py`.  `get_proof_id()` returns tuples, which `==` compares by their content. -/
noncomputable def andScript (env : Env E) (g0 g1 g2 g3 : Pt E) (x0 x1 x2 x0' x1' x1prime : Sec) : PM Unit := do
  newSecret x0 none
  newSecret x1 none
  newSecret x2 none
  let y1 ← liftE (comb2 4 g0 5 g1)
  let y2 ← liftE (comb2 4 g2 7 g3)
  let a ← scriptRep2 y1 x0 g0 x1 g1
  let b ← scriptRep2 y2 x0 g2 x2 g3
  let stmt ← liftE (opAnd a b)
  let stmt1 ← scriptRep2 y1 x0 g0 x1 g1
  let stmt2 ← scriptRep2 y2 x0 g2 x2 g3
  let equivalent ← liftE (mkAnd [stmt1, stmt2])
  let σ ← getStore
  let id ← liftE (Tree.proofId σ stmt)
  let id' ← liftE (Tree.proofId σ equivalent)
  pyAssert (decide (id = id'))
  let (ok, _) ← interact env stmt [(x0, 4), (x1, 5), (x2, 7)]
  pyAssert ok
  newSecret x0' (some 4)
  newSecret x1' (some 4)
  let a ← scriptRep1 (Pt.smul 4 g0) x0' g0 false
  let b ← scriptRep1 (Pt.smul 4 g1) x1' g1 false
  let stmt ← liftE (opAnd a b)
  newSecret x1prime (some 4)
  let a ← scriptRep1 (Pt.smul 4 g0) x1prime g0 false
  let b ← scriptRep1 (Pt.smul 4 g1) x1prime g1 false
  let another ← liftE (opAnd a b)
  let σ ← getStore
  let id ← liftE (Tree.proofId σ stmt)
  let id' ← liftE (Tree.proofId σ another)
  pyAssert (decide (id ≠ id'))

/-- `stmt.subproofs[0].set_simulated()` (`examples/orproof.py:34`). -/
def markFirst : Core E → Except Err (Core E)
  | .and b (t :: ts) => .ok (.and b (Tree.setSimulated true t :: ts))
  | .or b (t :: ts) => .ok (.or b (Tree.setSimulated true t :: ts))
  | .leaf _ => .error .attributeError
  | _ => .error .indexError

open Classical in
/-- `examples/orproof.py`. -/
noncomputable def orScript (env : Env E) (g0 g1 : Pt E) (x0 x1 : Sec) : PM Unit := do
  newSecret x0 (some 3)
  newSecret x1 (some 40)
  let y0 := Pt.smul 3 g0
  let y1 := Pt.smul 40 g1
  let a ← scriptRep1 y0 x0 g0 false
  let b ← scriptRep1 y1 x1 g1 false
  let stmt ← liftE (opOr a b)
  let stmt ← liftE (markFirst stmt)
  let stmt1 ← scriptRep1 y0 x0 g0 false
  let stmt2 ← scriptRep1 y1 x1 g1 false
  let equivalent ← liftE (mkOr [Tree.setSimulated true stmt1, stmt2])
  let σ ← getStore
  let id ← liftE (Tree.proofId σ stmt)
  let id' ← liftE (Tree.proofId σ equivalent)
  pyAssert (decide (id = id'))
  let stmt1 ← scriptRep1 y0 x0 g0 true
  let stmt2 ← scriptRep1 y1 x1 g1 false
  let equivalent ← liftE (mkOr [stmt1, stmt2])
  let id ← liftE (Tree.proofId σ stmt)
  let id' ← liftE (Tree.proofId σ equivalent)
  pyAssert (decide (id = id'))
  let (ok, _) ← interact env stmt []
  pyAssert ok

/-- `examples/simple_dlrep.py`.  The last line of the script ignores what `verify()` returns; here it is the result. -/
def simpleScript (env : Env E) (g0 g1 : Pt E) (x0 x1 : Sec) : PM Bool := do
  newSecret x0 none
  newSecret x1 none
  let y ← liftE (comb2 4 g0 42 g1)
  let stmt ← scriptRep2 y x0 g0 x1 g1
  let (ok, stmt) ← interact env stmt [(x0, 4), (x1, 42)]
  pyAssert ok
  let (nizk, stmt) ← prove (DLRepProver E) env stmt [(x0, 4), (x1, 42)] ""
  let σ ← getStore
  liftE (verify env σ stmt nizk "")

/-- `examples/two_level_proof.py`. -/
def twoLevelScript (env : Env E) (g0 g1 g2 : Pt E) (x0 x1 x2 : Sec) : PM Unit := do
  newSecret x0 (some 3)
  newSecret x1 (some 40)
  newSecret x2 (some 50)
  let a ← scriptRep1 (Pt.smul 3 g0) x0 g0 false
  let b ← scriptRep1 (Pt.smul 40 g1) x1 g1 false
  let either ← liftE (opOr a b)
  let c ← scriptRep1 (Pt.smul 50 g2) x2 g2 false
  let stmt ← liftE (opAnd either c)
  let (ok, _) ← interact env stmt []
  pyAssert ok

/-- `examples/expressions.py`: `g` is the generator (`:12`), `g'` and `h` are the points of `:33-34`; the secrets are the
objects of lines 15, 16, 19, 25, 31, 32, 38.  Results: whether the two calls of `get_prover` (`:22,28`) return provers, the
value of `expr.eval()` (`:40`) and the statement of `:43`. -/
def expressionsScript (g g' h : Pt E) (xa xb xc xd xe ye xf : Sec) : PM (Bool × Bool × Pt E × Core E) := do
  newSecret xa none
  newSecret xb (some 42)
  newSecret xc (some 4)
  let stmt ← scriptRep1 (Pt.smul 4 g) xc g false
  let (p, _) ← (PTree.getProver stmt [] : PM (Option (CoreProver E) × Core E))
  newSecret xd none
  let stmt ← scriptRep1 (Pt.smul 4 g) xd g false
  let (q, _) ← (PTree.getProver stmt [(xd, 4)] : PM (Option (CoreProver E) × Core E))
  newSecret xe none
  newSecret ye none
  let (e, h1) ← liftE (newExpr [] (.secret xe) g')
  let (f, h2) ← liftE (newExpr h1 (.secret ye) h)
  let (_, h3) ← liftE (addExpr h2 e (.expr f))
  newSecret xf (some 5)
  let (r, h4) ← liftE (newExpr h3 (.secret xf) g')
  let σ ← getStore
  let v ← liftE (evalExpr σ h4 r)
  let v' ← liftE (evalExpr σ h4 r)
  let s ← liftE (dlrepOf σ h4 v' (.expr r) false)
  pure (p.isSome, q.isSome, v, .leaf s)

end Zksk
