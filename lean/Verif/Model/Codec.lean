import Verif.Model.Nizk

/-!
# Serialization of proofs

`NIZK.serialize`, `NIZK.deserialize` (`zksk/base.py:34-53`) and the coders for points of pairing groups
(`zksk/pairings.py:289-313`).  The byte formats of `msgpack` and `petlib.pack` are parameters.
-/

namespace Zksk

variable {E : Type}

/-- What decoding makes of an encoded point.  A point of a `petlib` group is decoded to an equal point (of an
equal group).  For points of pairing groups `pt_dec` (`zksk/pairings.py:298-307`) makes a new
`BilinearGroupPair` object each time, here the one with identity `n`; the three groups of a pair have the
identities `3 n`, `3 n + 1`, `3 n + 2`, and the new point is in the one of the class.  `GTGroup` and `G2Group`
are compared by object identity.  Simplifications: so is `G1Group` here (the comparison of the underlying
`BpGroup` objects is up to `bplib`); the order of the group is kept (there is one curve). -/
def rereadPt (n : Nat) (p : Pt E) : Pt E × Nat :=
  if p.grp.strict then (p, n) else (⟨⟨3 * n + p.grp.gid % 3, p.grp.order, false⟩, p.val⟩, n + 1)

mutual
/-- `decode(encode(v))`, the pairs made by decoding being numbered from `n` on; also returns the next number.
Besides points, what changes are tuples: `msgpack` writes them like lists. -/
def reread (n : Nat) : Val E → Val E × Nat
  | .pt p => (.pt (rereadPt n p).1, (rereadPt n p).2)
  | .list l => (.list (rereadL n l).1, (rereadL n l).2)
  | .tuple l => (.list (rereadL n l).1, (rereadL n l).2)
  | .dict l => (.dict (rereadD n l).1, (rereadD n l).2)
  | .none => (.none, n)
  | .int k => (.int k, n)
  | .str s => (.str s, n)
  | .bytes b => (.bytes b, n)
/-- Elements of a list. -/
def rereadL (n : Nat) : List (Val E) → List (Val E) × Nat
  | [] => ([], n)
  | v :: l => ((reread n v).1 :: (rereadL (reread n v).2 l).1, (rereadL (reread n v).2 l).2)
/-- Entries of a dictionary. -/
def rereadD (n : Nat) : List (String × Val E) → List (String × Val E) × Nat
  | [] => ([], n)
  | (k, v) :: l => ((k, (reread n v).1) :: (rereadD (reread n v).2 l).1, (rereadD (reread n v).2 l).2)
end

/-- External functions used by serialization, besides `petlib.pack.encode`, which is `Env.encode`:
`petlib.pack.decode`, which also numbers the pairs it makes, `msgpack.packb` and `msgpack.unpackb` on lists of
byte strings. -/
structure Codec (E : Type) where
  decode : Nat → List UInt8 → Except Err (Val E × Nat)
  packb : List (List UInt8) → List UInt8
  unpackb : List UInt8 → Except Err (List (List UInt8))

/-- `NIZK.serialize` (`zksk/base.py:34-44`). -/
def NIZK.serialize (env : Env E) (cd : Codec E) (nizk : NIZK E) : List UInt8 :=
  cd.packb [env.encode (.int nizk.challenge), env.encode nizk.responses, env.encode nizk.precommitment,
    env.encode (.bytes nizk.stmtHash)]

/-- `[decode(x) for x in ...]` (`zksk/base.py:52`). -/
def Codec.decodeAll (cd : Codec E) (n : Nat) : List (List UInt8) → Except Err (List (Val E) × Nat)
  | [] => .ok ([], n)
  | b :: bs => do
    let (v, n') ← cd.decode n b
    let (vs, n'') ← cd.decodeAll n' bs
    .ok (v :: vs, n'')

/-- `NIZK.deserialize` (`zksk/base.py:47-53`).  Simplification: as a `NIZK` of the model has an integer challenge
and a byte string as statement hash, other values, missing ones included, are refused here. -/
def NIZK.deserialize (cd : Codec E) (n : Nat) (raw : List UInt8) : Except Err (NIZK E × Nat) := do
  let parts ← cd.unpackb raw
  let (vs, n') ← cd.decodeAll n parts
  match vs with
  | [.int c, r, v, .bytes h] => .ok (⟨c, r, v, h⟩, n')
  | _ => .error .typeError

end Zksk
