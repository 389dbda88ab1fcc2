import Verif.Model.DLRep

/-! # Expressions (`zksk/expr.py`) and random points (`zksk/utils/groups.py`)

Expression objects are mutable, so they live in a heap and are referred to by their position. -/

namespace Zksk

variable {E : Type} [AddCommGroup E] [DecidableEq E]

/-- The attributes of an `Expression` object (`zksk/expr.py:41-42`). -/
structure EObj (E : Type) where
  secrets : List Sec
  bases : List (Pt E)

/-- The expression objects allocated so far. -/
abbrev EHeap (E : Type) := List (EObj E)

/-- A Python object used as an operand. -/
inductive Arg where
  | expr (r : Nat)
  | secret (s : Sec)
  | other

/-- `Expression(secret, base)` (`zksk/expr.py:34-42`), also reached through `Secret.__mul__` and
`__rmul__` (`:116-128`).  Returns the reference of the new object. -/
def newExpr (h : EHeap E) (a : Arg) (base : Pt E) : Except Err (Nat × EHeap E) :=
  match a with
  | .secret s => .ok (h.length, h ++ [⟨[s], [base]⟩])
  | _ => .error .invalidExpression

/-- `self + other` (`zksk/expr.py:44-60`): the lists of `self` are extended in place and `self` is
returned.  For `self is other` the lists are doubled (`list.extend` reads the length first). References
outside the heap do not exist in Python; the model answers `foreign`. -/
def addExpr (h : EHeap E) (self : Nat) (other : Arg) : Except Err (Nat × EHeap E) :=
  match other with
  | .expr r =>
    match h[self]?, h[r]? with
    | some a, some b => .ok (self, h.set self ⟨a.secrets ++ b.secrets, a.bases ++ b.bases⟩)
    | _, _ => .error .foreign
  | _ => .error .invalidExpression

/-- `ith_mul` (`zksk/expr.py:79-80`). -/
def EObj.ithMul (σ : Store) (e : EObj E) (i : Nat) : Except Err (Pt E) :=
  match e.secrets[i]? with
  | none => .error .indexError
  | some s =>
    match σ.value s, e.bases[i]? with
    | some v, some b => .ok (Pt.smul v b)
    | some _, none => .error .indexError
    | none, _ => .error .typeError

/-- `for i in range(1, len(self._secrets)): summation += ith_mul(i)` (`zksk/expr.py:83-84`), `k`
iterations remain. -/
def EObj.evalGo (σ : Store) (e : EObj E) : Nat → Nat → Pt E → Except Err (Pt E)
  | 0, _, acc => .ok acc
  | k + 1, i, acc => do
    let p ← e.ithMul σ i
    let acc' ← acc.add p
    evalGo σ e k (i + 1) acc'

/-- `Expression.eval` (`zksk/expr.py:70-85`) of an object. -/
def EObj.eval (σ : Store) (e : EObj E) : Except Err (Pt E) :=
  if e.secrets.any (fun s => (σ.value s).isNone) then .error .incompleteValues
  else do
    let p ← e.ithMul σ 0
    e.evalGo σ (e.secrets.length - 1) 1 p

/-- `expr.eval()`. -/
def evalExpr (σ : Store) (h : EHeap E) (r : Nat) : Except Err (Pt E) :=
  match h[r]? with
  | some e => e.eval σ
  | none => .error .foreign

/-- Loop of `wsum_secrets` (`zksk/expr.py:171-173`), `k` iterations remain. -/
def wsumLoop (secrets : List Sec) (bases : List (Pt E)) : Nat → Nat → EHeap E → Nat →
    Except Err (Nat × EHeap E)
  | 0, _, h, result => .ok (result, h)
  | k + 1, idx, h, result =>
    match secrets[idx + 1]?, bases[idx + 1]? with
    | some s, some b => do
      let (t, h1) ← newExpr h (.secret s) b
      let (result', h2) ← addExpr h1 result (.expr t)
      wsumLoop secrets bases k (idx + 1) h2 result'
    | _, _ => .error .indexError

/-- `wsum_secrets` (`zksk/expr.py:148-174`). -/
def wsumSecrets (h : EHeap E) (secrets : List Sec) (bases : List (Pt E)) : Except Err (Nat × EHeap E) :=
  if secrets.length ≠ bases.length then .error .valueError
  else
    match secrets[0]?, bases[0]? with
    | some s, some b => do
      let (r, h1) ← newExpr h (.secret s) b
      wsumLoop secrets bases (bases.length - 1) 0 h1 r
    | _, _ => .error .indexError

/-- `DLRep(lhs, expr, simulated)` (`zksk/primitives/dlrep.py:84-106`): the lists of the expression are
copied. -/
def dlrepOf (σ : Store) (h : EHeap E) (lhs : Pt E) (expr : Arg) (simulated : Bool) : Except Err (DLRep E) :=
  match expr with
  | .expr r =>
    match h[r]? with
    | some e => mkDLRep σ lhs e.secrets e.bases simulated
    | none => .error .foreign
  | _ => .error .typeError

/-! ### Generators -/

/-- Functions of the libraries used by `get_random_point`. -/
structure PointEnv (E : Type) where
  /-- `hashlib.sha512(..).digest()` -/
  sha512 : List UInt8 → List UInt8
  /-- `b"%i" % seed` -/
  format : Int → List UInt8
  /-- `group.hash_to_point` -/
  hashToPoint : Grp → List UInt8 → Pt E
  /-- the bytes of a number drawn by `secrets.token_bytes` -/
  tokenBytes : Nat → Int → List UInt8

/-- `get_random_point(group, random_bits, seed)` (`zksk/utils/groups.py:12-44`).  Simplification:
`math.ceil(random_bits / 8)` is computed in integers. The default group is an explicit argument. -/
def getRandomPoint (pe : PointEnv E) (g : Grp) (randomBits : Nat) (seed : Option Int) : PM (Pt E) :=
  let numBytes := (randomBits + 7) / 8
  match seed with
  | none => do
    let x ← draw (256 ^ numBytes)
    pure (pe.hashToPoint g (pe.tokenBytes numBytes x))
  | some s => pure (pe.hashToPoint g ((pe.sha512 (pe.format s)).take numBytes))

/-- The list comprehension of `make_generators` (`zksk/utils/groups.py:68-73`), `k` iterations
remain. -/
def makeGeneratorsGo (pe : PointEnv E) (g : Grp) (randomBits : Nat) (seed : Option Int) :
    Nat → Nat → PM (List (Pt E))
  | 0, _ => pure []
  | k + 1, i => do
    let p ← getRandomPoint pe g randomBits (seed.map fun s => s + (i : Int))
    let ps ← makeGeneratorsGo pe g randomBits seed k (i + 1)
    pure (p :: ps)

/-- `make_generators(num, group, random_bits, seed)` (`zksk/utils/groups.py:47-74`). -/
def makeGenerators (pe : PointEnv E) (num : Nat) (g : Grp) (randomBits : Nat) (seed : Option Int) :
    PM (List (Pt E)) :=
  makeGeneratorsGo pe g randomBits seed num 0

end Zksk
