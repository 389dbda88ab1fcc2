import Verif.Model.Pairings
import Verif.Model.BBS
import Mathlib.Algebra.Group.TypeTags.Basic
import Mathlib.Algebra.Group.Prod
import Mathlib.Algebra.BigOperators.Group.List.Basic

/-! # Vocabulary for statements about the wrappers of `bplib` -/

namespace Zksk.Bp

variable {A B T : Type} [AddCommGroup A] [AddCommGroup B] [CommGroup T]

/-- The three groups of `bplib`, all written additively. -/
abbrev Sum3 (A B T : Type) : Type := A × B × Additive T

/-- The group an element is in. -/
def Elem.kind : Elem A B T → Kind
  | .g1 _ => .one
  | .g2 _ => .two
  | .gt _ => .tgt

/-- An element, written additively. -/
def Elem.val : Elem A B T → Sum3 A B T
  | .g1 a => (a, 0, 0)
  | .g2 b => (0, b, 0)
  | .gt t => (0, 0, Additive.ofMul t)

/-- `p` is a point of group `k` of the pair `b` with value `v`. -/
structure IsPoint (p : Point A B T) (b : Nat) (k : Kind) (v : Sum3 A B T) : Prop where
  pair : p.bp = b
  kind : p.pt.kind = k
  val : p.pt.val = v

/-- What is assumed of a group of `bplib`: the neutral elements are right, the pairing is bilinear, and `t ** n` is
the power *unless* `n` is zero. -/
structure BpGroup.Works (lib : BpGroup A B T) : Prop where
  inf1 : lib.inf1 = 0
  inf2 : lib.inf2 = 0
  one : lib.one = 1
  pair_left : ∀ a a' b, lib.pair (a + a') b = lib.pair a b * lib.pair a' b
  pair_right : ∀ a b b', lib.pair a (b + b') = lib.pair a b * lib.pair a b'
  pow : ∀ t n, n ≠ 0 → lib.pow t n = t ^ n

/-- The generators of the groups of `bplib`. -/
def BpGroup.gen (lib : BpGroup A B T) : Kind → Sum3 A B T
  | .one => (lib.gen1, 0, 0)
  | .two => (0, lib.gen2, 0)
  | .tgt => (0, 0, Additive.ofMul (lib.pair lib.gen1 lib.gen2))

/-- A call of the classes of `zksk/pairings.py` that may read or change objects. -/
inductive Call (A B T : Type)
  | mk (bpGroup : Option (BpGroup A B T))
  | order (b : Nat) (k : Kind)
  | generator (b : Nat) (k : Kind)
  | infinite (b : Nat) (k : Kind)
  | sum (b : Nat) (k : Kind) (ps : List (Point A B T))
  | wsum (b : Nat) (k : Kind) (ws : List Int) (ps : List (Point A B T))
  | hashToPoint (b : Nat) (k : Kind) (s : List UInt8)
  | pair (p q : Point A B T)

/-- The objects after a call, whether it returns or raises. -/
def Call.run (lib : BpGroup A B T) (h : Heap A B T) : Call A B T → Heap A B T
  | .mk g => (mkPair lib g h).2
  | .order b k => (Bp.order b k h).2
  | .generator b k => (Bp.generator b k h).2
  | .infinite b k => (Bp.infinite b k h).2
  | .sum b k ps => (Bp.sum b k ps h).2
  | .wsum b k ws ps => (Bp.wsum lib.pow b k ws ps h).2
  | .hashToPoint b k s => (Bp.hashToPoint b k s h).2
  | .pair p q => (p.pair q h).2

/-- The objects after calls, from the first to the last. -/
def after (lib : BpGroup A B T) (h : Heap A B T) (cs : List (Call A B T)) : Heap A B T :=
  cs.foldl (Call.run lib) h

/-- In a program that starts without pairs, `b` is the pair that one of the calls so far, `BilinearGroupPair(g)`, has
returned, and `h` are the objects now. -/
def Made (lib : BpGroup A B T) (g : Option (BpGroup A B T)) (b : Nat) (h : Heap A B T) : Prop :=
  ∃ before afterwards, (mkPair lib g (after lib [] before)).1 = .ok b ∧
    h = after lib (mkPair lib g (after lib [] before)).2 afterwards

/-- The pair `b` in the terms of the rest of the model. -/
def abstractPairing (lib : BpGroup A B T) (hl : lib.Works) (b : Nat) : Pairing (Sum3 A B T) where
  id := b
  order := lib.order
  e := AddMonoidHom.mk'
    (fun x => AddMonoidHom.mk' (fun y => ((0, 0, Additive.ofMul (lib.pair x.1 y.2.1)) : Sum3 A B T))
      fun y y' => by
        have := congrArg Additive.ofMul (hl.pair_right x.1 y.2.1 y'.2.1)
        simpa using this)
    fun x x' => by
      ext1 y
      have := congrArg Additive.ofMul (hl.pair_left x.1 x'.1 y.2.1)
      simpa using this

/-- The group `k` of the pair `b` in the terms of the rest of the model. -/
def abstractGroup (lib : BpGroup A B T) (b : Nat) : Kind → Grp
  | .one => ⟨3 * b, lib.order, false⟩
  | .two => ⟨3 * b + 1, lib.order, false⟩
  | .tgt => ⟨3 * b + 2, lib.order, false⟩

/-- A point in the terms of the rest of the model. -/
def abstractPoint (lib : BpGroup A B T) (p : Point A B T) : Pt (Sum3 A B T) :=
  ⟨abstractGroup lib p.bp p.pt.kind, p.pt.val⟩

end Zksk.Bp
