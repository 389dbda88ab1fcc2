import Verif.Model.Basic
import Mathlib.Algebra.Group.Defs
import Mathlib.Data.Fintype.Defs

/-!
# The wrappers of `bplib` (`zksk/pairings.py`)

The objects `BilinearGroupPair`, `G1Group`, `G2Group`, `GTGroup` with the points they keep in attributes, and the
classes of points.  The rest of the model uses the abstract `Pt` and `Pairing` (`Verif/Model/Basic.lean`,
`Verif/Model/BBS.lean`); `Verif/Props/Pairings.lean` relates the two.
-/

namespace Zksk.Bp

/-- A `bplib.bp.BpGroup` object: the elements of its three groups are of types `A`, `B`, `T`; the values of `order()`,
`gen1()`, `gen2()`, `elem.inf(group)`, `elem.one(group)`, `pair(p, q)`, `t ** n`, `hashG1(string)` and the attribute
`nid`.  (The other operations of elements, `+`, `*`, `/`, `==`, are those of the types.) -/
structure BpGroup (A B T : Type) where
  order : Nat
  gen1 : A
  gen2 : B
  inf1 : A
  inf2 : B
  one : T
  pair : A → B → T
  pow : T → Int → T
  hashG1 : List UInt8 → A
  nid : Nat

/-- An element of `bplib`: `G1Elem`, `G2Elem` or `GTElem`. -/
inductive Elem (A B T : Type)
  | g1 (a : A)
  | g2 (b : B)
  | gt (t : T)
  deriving DecidableEq

/-- Which of the groups of a pair: `G1`, `G2`, `GT`. -/
inductive Kind
  | one | two | tgt
  deriving DecidableEq

/-- A point: the element and the pair it belongs to (`zksk/pairings.py:89-92,132-135,173-176`).  The class is that of
the element: `G1Point`, `G2Point` or `AdditivePoint`; `group` is the group of the pair that belongs to the class. -/
structure Point (A B T : Type) where
  pt : Elem A B T
  bp : Nat
  deriving DecidableEq

/-- A `BilinearGroupPair` object with its three groups (`zksk/pairings.py:21-26,48-51,210-213,258-261`): `bpgp` is
missing if the attribute has never been set; `gen` and `inf` are the attributes of the groups. -/
structure PairObj (A B T : Type) where
  bpgp : Option (BpGroup A B T)
  gen : Kind → Option (Point A B T)
  inf : Kind → Option (Point A B T)

/-- The pairs made so far, in order. -/
abbrev Heap (A B T : Type) := List (PairObj A B T)

/-- Programs which read and change pairs; changes stay when they raise. -/
def HM (A B T α : Type) : Type := Heap A B T → Except Err α × Heap A B T

section
variable {A B T : Type}

namespace HM

instance : Monad (HM A B T) where
  pure a := fun h => (.ok a, h)
  bind x f := fun h =>
    match x h with
    | (.ok a, h') => f a h'
    | (.error e, h') => (.error e, h')

/-- `raise e`. -/
def fail {α : Type} (e : Err) : HM A B T α := fun h => (.error e, h)

/-- A program which does not touch the pairs. -/
def lift {α : Type} (x : Except Err α) : HM A B T α := fun h => (x, h)

end HM

/-- `bp.bpgp` -/
def bpgp (b : Nat) : HM A B T (BpGroup A B T) := fun h =>
  match h[b]? with
  | none => (.error .attributeError, h)
  | some o =>
    match o.bpgp with
    | none => (.error .attributeError, h)
    | some g => (.ok g, h)

/-- The attribute `gen` of a group. -/
def getGen (b : Nat) (k : Kind) : HM A B T (Option (Point A B T)) := fun h => (.ok ((h[b]?).bind (·.gen k)), h)

/-- The attribute `inf` of a group. -/
def getInf (b : Nat) (k : Kind) : HM A B T (Option (Point A B T)) := fun h => (.ok ((h[b]?).bind (·.inf k)), h)

/-- `self.gen = p` -/
def setGen (b : Nat) (k : Kind) (p : Point A B T) : HM A B T Unit := fun h =>
  (.ok (), h.modify b fun o => { o with gen := fun k' => if k' = k then some p else o.gen k' })

/-- `self.inf = p` -/
def setInf (b : Nat) (k : Kind) (p : Point A B T) : HM A B T Unit := fun h =>
  (.ok (), h.modify b fun o => { o with inf := fun k' => if k' = k then some p else o.inf k' })

/-- `BilinearGroupPair(bp_group)` (`zksk/pairings.py:21-26`), `lib` being what `BpGroup()` returns: an argument is
not stored. Returns the new object. -/
def mkPair (lib : BpGroup A B T) (bpGroup : Option (BpGroup A B T)) : HM A B T Nat := fun h =>
  let attr : Option (BpGroup A B T) :=
    match bpGroup with
    | none => some lib
    | some _ => none
  (.ok h.length, h ++ [⟨attr, fun _ => none, fun _ => none⟩])

/-- `order()` (`zksk/pairings.py:58-59,225-226,273-274`). -/
def order (b : Nat) (_ : Kind) : HM A B T Nat := do
  let g ← bpgp b
  pure g.order

/-- `p.pair(q)` (`zksk/pairings.py:157-158`): only `G1Point` has the method; the library refuses an argument which is
not in `G2`. -/
def Point.pair (p q : Point A B T) : HM A B T (Point A B T) :=
  match p.pt with
  | .g1 a => do
    let g ← bpgp p.bp
    match q.pt with
    | .g2 b => pure ⟨.gt (g.pair a b), p.bp⟩
    | _ => HM.fail .foreign
  | _ => HM.fail .attributeError

/-- `G1Group.generator` (`zksk/pairings.py:215-218`). -/
def generator1 (b : Nat) : HM A B T (Point A B T) := do
  match ← getGen b .one with
  | some p => pure p
  | none => do
    let g ← bpgp b
    let p : Point A B T := ⟨.g1 g.gen1, b⟩
    setGen b .one p
    pure p

/-- `G2Group.generator` (`zksk/pairings.py:263-266`). -/
def generator2 (b : Nat) : HM A B T (Point A B T) := do
  match ← getGen b .two with
  | some p => pure p
  | none => do
    let g ← bpgp b
    let p : Point A B T := ⟨.g2 g.gen2, b⟩
    setGen b .two p
    pure p

/-- `GTGroup.generator` (`zksk/pairings.py:61-64`). -/
def generatorT (b : Nat) : HM A B T (Point A B T) := do
  match ← getGen b .tgt with
  | some p => pure p
  | none => do
    let p ← generator1 b
    let q ← generator2 b
    let r ← p.pair q
    setGen b .tgt r
    pure r

/-- `generator()` of one of the groups. -/
def generator (b : Nat) : Kind → HM A B T (Point A B T)
  | .one => generator1 b
  | .two => generator2 b
  | .tgt => generatorT b

/-- `elem.inf(group)`, for `GTElem` `elem.one(group)`. -/
def BpGroup.neutral (g : BpGroup A B T) : Elem A B T → Elem A B T
  | .g1 _ => .g1 g.inf1
  | .g2 _ => .g2 g.inf2
  | .gt _ => .gt g.one

/-- `infinite()` (`zksk/pairings.py:53-56,220-223,268-271`). -/
def infinite (b : Nat) (k : Kind) : HM A B T (Point A B T) := do
  match ← getInf b k with
  | some p => pure p
  | none => do
    let q ← generator b k
    let g ← bpgp b
    let p : Point A B T := ⟨g.neutral q.pt, b⟩
    setInf b k p
    pure p

/-- `hash_to_point(string)` (`zksk/pairings.py:231-232`): only `G1Group` has the method. -/
def hashToPoint (b : Nat) (k : Kind) (s : List UInt8) : HM A B T (Point A B T) :=
  match k with
  | .one => do
    let g ← bpgp b
    pure ⟨.g1 (g.hashG1 s), b⟩
  | _ => HM.fail .attributeError

variable [AddCommGroup A] [AddCommGroup B] [CommGroup T]

/-- `p + q` (`zksk/pairings.py:111-115,140-141,181-182`): the library refuses elements of different groups, also if
one is written additively. -/
def Point.add (p q : Point A B T) : Except Err (Point A B T) :=
  match p.pt, q.pt with
  | .g1 a, .g1 a' => .ok ⟨.g1 (a + a'), p.bp⟩
  | .g2 b, .g2 b' => .ok ⟨.g2 (b + b'), p.bp⟩
  | .gt t, .gt t' => .ok ⟨.gt (t * t'), p.bp⟩
  | _, _ => .error .foreign

/-- `p * n`, `n * p` (`zksk/pairings.py:97-106,117,146-147,155,187-188,196`), `pow` being what `**` of the library does:
`AdditivePoint` does not use it for zero. -/
def Point.mul (pow : T → Int → T) (p : Point A B T) (n : Int) : Point A B T :=
  match p.pt with
  | .g1 a => ⟨.g1 (n • a), p.bp⟩
  | .g2 b => ⟨.g2 (n • b), p.bp⟩
  | .gt t => if n = 0 then ⟨.gt (t / t), p.bp⟩ else ⟨.gt (pow t n), p.bp⟩

/-- `p - q` (`zksk/pairings.py:143-144,184-185`); `AdditivePoint` has no subtraction. -/
def Point.sub (pow : T → Int → T) (p q : Point A B T) : Except Err (Point A B T) :=
  match p.pt with
  | .gt _ => .error .typeError
  | _ => p.add (q.mul pow (-1))

/-- `p == q` (`zksk/pairings.py:108-109,152-153,193-194`): the pairs are not compared. -/
def Point.eq [DecidableEq A] [DecidableEq B] [DecidableEq T] (p q : Point A B T) : Bool := decide (p.pt = q.pt)

/-- The loop of `sum`. -/
def sumGo (res : Point A B T) : List (Point A B T) → Except Err (Point A B T)
  | [] => .ok res
  | p :: ps => do
    let res' ← res.add p
    sumGo res' ps

/-- `sum(points)` (`zksk/pairings.py:66-70,235-239,277-281`). -/
def sum (b : Nat) (k : Kind) (ps : List (Point A B T)) : HM A B T (Point A B T) := do
  let res ← infinite b k
  HM.lift (sumGo res ps)

/-- The loop of `wsum`. -/
def wsumGo (pow : T → Int → T) (res : Point A B T) : List Int → List (Point A B T) → Except Err (Point A B T)
  | w :: ws, p :: ps => do
    let res' ← res.add (p.mul pow w)
    wsumGo pow res' ws ps
  | _, _ => .ok res

/-- `wsum(weights, generators)` (`zksk/pairings.py:72-76,242-246,283-287`). -/
def wsum (pow : T → Int → T) (b : Nat) (k : Kind) (ws : List Int) (ps : List (Point A B T)) :
    HM A B T (Point A B T) := do
  let res ← infinite b k
  HM.lift (wsumGo pow res ws ps)

end

end Zksk.Bp
