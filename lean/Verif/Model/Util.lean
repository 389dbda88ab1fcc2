import Verif.Model.Basic
import Mathlib.Data.Nat.Size

/-! # Integer helpers of zksk -/

namespace Zksk

/-- `sum_bn_array` (`zksk/utils/groups.py:89-105`): `Bn.mod_add` returns the non-negative residue. -/
def sumBnArray (arr : List Int) (modulus : Int) : Int :=
  arr.foldl (fun res e => (res + e) % modulus) 0

/-- `_find_residual_challenge` (`zksk/composition.py:24-39`). -/
def findResidualChallenge (subchallenges : List Int) (challenge : Int) (bits : Nat) : Int :=
  -(sumBnArray (subchallenges ++ [-challenge]) (2 ^ bits))

/-- Map from secret names to identifiers. -/
abbrev IdMap := List (String × Nat)

/-- Loop body of `_assign_secret_ids` (`zksk/composition.py:57-60`). -/
def assignIdsGo : List String → IdMap → Nat → IdMap
  | [], m, _ => m
  | n :: ns, m, counter =>
    match m.lookup n with
    | some _ => assignIdsGo ns m counter
    | none => assignIdsGo ns (m ++ [(n, counter)]) (counter + 1)

/-- `_assign_secret_ids` (`zksk/composition.py:42-61`) on the names of the secrets. -/
def assignSecretIds (names : List String) : IdMap := assignIdsGo names [] 0

/-- `secret_id_map[s.name]` (`zksk/composition.py:88`). -/
def IdMap.get (m : IdMap) (n : String) : Except Err Nat :=
  match m.lookup n with
  | some i => .ok i
  | none => .error .keyError

/-- `Bn.num_bits()`: number of bits of the absolute value. -/
def numBits (v : Int) : Nat := v.natAbs.size

/-- `decompose_into_n_bits` (`zksk/primitives/rangeproof.py:26-37`).  `Bn.is_bit_set(b)` is
`Nat.testBit`. -/
def decomposeIntoNBits (value : Int) (n : Nat) : Except Err (List Int) :=
  if value < 0 then .error .generic
  else
    let base := (List.range (numBits value)).map (fun b => if value.natAbs.testBit b then (1 : Int) else 0)
    if (n : Int) - (base.length : Int) < 0 then .error .generic
    else .ok (base ++ List.replicate (n - base.length) 0)

end Zksk
