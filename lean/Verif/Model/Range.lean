import Verif.Model.Ext

/-! # Range proofs (`zksk/primitives/rangeproof.py`) -/

namespace Zksk

variable {E : Type} [AddCommGroup E] [DecidableEq E]

/-- A `PowerTwoRangeStmt` object (`zksk/primitives/rangeproof.py:57-80`).  `rands` are the fresh
secrets `self.randomizers`; there are `num_bits` of them (line 80), so `num_bits` is their number.
`isProver` is the flag computed by the constructor; `x` and `r` are only attributes of the object when
it is set. -/
structure PowerTwo (E : Type) where
  com : Pt E
  g : Pt E
  h : Pt E
  x : Sec
  r : Sec
  isProver : Bool
  rands : List Sec

/-- `PowerTwoRangeStmt(com, g, h, num_bits, x, randomizer)`
(`zksk/primitives/rangeproof.py:57-80`).  The warnings have no effect on the object. -/
def mkPowerTwo (σ : Store) (com g h : Pt E) (x r : Sec) (rands : List Sec) : PowerTwo E :=
  ⟨com, g, h, x, r, (σ.value x).isSome && (σ.value r).isSome, rands⟩

namespace PowerTwo

/-- `self.num_bits`. -/
def numBits (s : PowerTwo E) : Nat := s.rands.length

/-- `self.order`. -/
def order (s : PowerTwo E) : Nat := s.g.grp.order

/-- `ensure_bn(self.x.value)` (`zksk/primitives/rangeproof.py:86,116`). -/
def value (s : PowerTwo E) (σ : Store) : Except Err Int :=
  if s.isProver then
    match σ.value s.x with
    | some x => .ok x
    | none => .error .typeError
  else .error .attributeError

/-- `for rand in self.randomizers: rand.value = self.order.random()`
(`zksk/primitives/rangeproof.py:90-91`). -/
def drawRands (m : Nat) : List Sec → PM Unit
  | [] => pure ()
  | s :: ss => do
    let v ← draw m
    let σ ← getStore
    setStore (σ.setValue s v)
    drawRands m ss

/-- `[b * self.g + r.value * self.h for b, r in zip(value_as_bits, self.randomizers)]`
(`zksk/primitives/rangeproof.py:94-97`). -/
def bitComs (σ : Store) (g h : Pt E) : List Int → List Sec → Except Err (List (Val E))
  | b :: bs, s :: ss => do
    let v ← match σ.value s with
      | some v => .ok v
      | none => .error .typeError
    let c ← (Pt.smul b g).add (Pt.smul v h)
    let cs ← bitComs σ g h bs ss
    .ok (.pt c :: cs)
  | _, _ => .ok []

/-- `for r in …: rand = rand.mod_add(r * power, order); power *= 2`
(`zksk/primitives/rangeproof.py:100-104,142-146`). -/
def sumRands (m : Nat) : Int → Int → List Int → Int
  | rand, _, [] => rand
  | rand, power, v :: vs => sumRands m ((rand + v * power) % (m : Int)) (power * 2) vs

/-- The values of the randomizers. -/
def values (σ : Store) : List Sec → Except Err (List Int)
  | [] => .ok []
  | s :: ss => do
    let v ← match σ.value s with
      | some v => .ok v
      | none => .error .typeError
    let vs ← values σ ss
    .ok (v :: vs)

/-- `precommit` (`zksk/primitives/rangeproof.py:82-108`). -/
def precommit (s : PowerTwo E) : PM (Val E) := do
  let σ ← getStore
  let x ← liftE (s.value σ)
  let bits ← liftE (decomposeIntoNBits x s.numBits)
  drawRands s.order s.rands
  let σ1 ← getStore
  let cs ← liftE (bitComs σ1 s.g s.h bits s.rands)
  let vs ← liftE (values σ1 s.rands)
  let r ← liftE (match σ1.value s.r with
    | some r => .ok r
    | none => .error .typeError)
  pure (.dict [("Cs", .list cs), ("rand", .int ((sumRands s.order 0 1 vs - r) % (s.order : Int)))])

/-- One round of the loop of `construct_stmt` (`zksk/primitives/rangeproof.py:123-131`); `bit` is the
bit of the value when `self.is_prover`. -/
def bitProof (s : PowerTwo E) (σ : Store) (v : Val E) (i : Nat) (rand : Sec) (bit : Option Int) :
    Except Err (Core E) := do
  let c ← (← (← v.lookup "Cs").index i).asPt
  let p0 ← mkDLRep σ c [rand] [s.h] false
  let c' ← c.sub s.g
  let p1 ← mkDLRep σ c' [rand] [s.h] false
  let p0 := match bit with
    | some b => { p0 with simulated := decide (b = 1) }
    | none => p0
  let p1 := match bit with
    | some b => { p1 with simulated := decide (b = 0) }
    | none => p1
  opOr (.leaf p0) (.leaf p1)

/-- The loop of `construct_stmt` (`zksk/primitives/rangeproof.py:121-131`).  `bits` are the bits still
to be used when `self.is_prover`; running out of them would be an `IndexError`. -/
def bitProofs (s : PowerTwo E) (σ : Store) (v : Val E) :
    Nat → List Sec → Option (List Int) → Except Err (List (Core E))
  | _, [], _ => .ok []
  | i, rand :: rands, none => do
    let p ← s.bitProof σ v i rand none
    let ps ← bitProofs s σ v (i + 1) rands none
    .ok (p :: ps)
  | i, rand :: rands, some (b :: bs) => do
    let p ← s.bitProof σ v i rand (some b)
    let ps ← bitProofs s σ v (i + 1) rands (some bs)
    .ok (p :: ps)
  | _, _ :: _, some [] => .error .indexError

/-- The bits of the value that say which clauses are simulated
(`zksk/primitives/rangeproof.py:114-119`). -/
def proverBits (s : PowerTwo E) (σ : Store) : Except Err (Option (List Int)) :=
  if s.isProver then do
    let x ← s.value σ
    let bits ← decomposeIntoNBits x s.numBits
    .ok (some bits)
  else .ok none

/-- `construct_stmt` (`zksk/primitives/rangeproof.py:110-133`).  Simplification: entries of `Cs` that
are not points are refused with the same exception wherever Python would fail on them. -/
def construct (s : PowerTwo E) (σ : Store) (v : Val E) : Except Err (Core E) := do
  let bits ← s.proverBits σ
  let ps ← s.bitProofs σ v 0 s.rands bits
  mkAnd ps

/-- `[self.order.random() for _ in range(self.num_bits)]` (`zksk/primitives/rangeproof.py:136`). -/
def drawMany (m : Nat) : Nat → PM (List Int)
  | 0 => pure []
  | n + 1 => do
    let v ← draw m
    let vs ← drawMany m n
    pure (v :: vs)

/-- `simulate_precommit` (`zksk/primitives/rangeproof.py:135-149`). -/
def simPrecommit (s : PowerTwo E) : PM (Val E) := do
  let vs ← drawMany s.order s.numBits
  match vs with
  | [] => raise .indexError
  | v :: rest => do
    let c0 ← liftE ((Pt.smul v s.h).add s.com)
    pure (.dict [("Cs", .list (.pt c0 :: rest.map fun u => .pt (Pt.smul u s.h))),
      ("rand", .int (sumRands s.order 0 1 vs))])

/-- `for c in …: combined += power * c; power *= 2` (`zksk/primitives/rangeproof.py:158-162`). -/
def combine : Pt E → Int → List (Val E) → Except Err (Pt E)
  | acc, _, [] => .ok acc
  | acc, power, c :: cs => do
    let p ← c.asPt
    let acc' ← acc.add (Pt.smul power p)
    combine acc' (power * 2) cs

/-- `validate` (`zksk/primitives/rangeproof.py:151-165`). -/
def validate (s : PowerTwo E) (v : Val E) : Except Err Unit := do
  let rand ← v.lookup "rand"
  let cs ← (← v.lookup "Cs").elems
  let combined ← combine s.g.grp.inf 1 cs
  let n ← rand.asInt
  let rhs ← s.com.add (Pt.smul n s.h)
  if combined = rhs then .ok () else .error .validation

/-- The subclass. -/
def spec (s : PowerTwo E) : ExtSpec E where
  cls := "PowerTwoRangeStmt"
  construct := s.construct
  validate := s.validate
  precommit := s.precommit
  simPrecommit := s.simPrecommit

/-- The statement object right after `PowerTwoRangeStmt(...)`. -/
def stmt (s : PowerTwo E) : Stmt E :=
  .leaf (.ext ⟨s.spec, false, .none, none, none⟩)

end PowerTwo

/-- `num_bits` and `offset` of the generic range proof (`zksk/primitives/rangeproof.py:216-217`). -/
def rangeBits (a b : Int) : Nat := numBits (b - a - 1)
/-- See `rangeBits`. -/
def rangeOffset (a b : Int) : Int := 2 ^ rangeBits a b - (b - a)

/-- The values given to `x1`, `x2` (`zksk/primitives/rangeproof.py:223-225`). -/
def rangeStore (σ : Store) (a b : Int) (x x1 x2 : Sec) : Store :=
  match σ.value x with
  | none => σ
  | some v => (σ.setValue x1 (v - a)).setValue x2 (v - a + rangeOffset a b)

/-- The `n` secrets allocated from address `next` on. -/
def freshSecs (next n : Nat) : List Sec := (List.range n).map (next + ·)

/-- The body shared by `RangeStmt` and `RangeOnlyStmt` (`zksk/primitives/rangeproof.py:219-241,
289-306`): `next` is the address of the next new secret, so `x1` is `next`, `x2` is `next + 1`, then
come the randomizers of the two power-two statements.  Returns the heap after the call and the
statement. -/
def rangeStmt (σ : Store) (com g h : Pt E) (a b : Int) (x r : Sec) (next : Nat) :
    Except Err (Store × Stmt E) := do
  let com1 ← com.sub (Pt.smul a g)
  let com2 ← com1.add (Pt.smul (rangeOffset a b) g)
  let σ1 := rangeStore σ a b x next (next + 1)
  let comStmt ← mkDLRep σ1 com [x, r] [g, h] false
  let n := rangeBits a b
  let p1 := mkPowerTwo σ1 com1 g h next r (freshSecs (next + 2) n)
  let p2 := mkPowerTwo σ1 com2 g h (next + 1) r (freshSecs (next + 2 + n) n)
  let t ← opAnd (.leaf (.dlrep comStmt)) p1.stmt
  let t ← opAnd t p2.stmt
  .ok (σ1, t)

/-- `RangeOnlyStmt(a, b, x)` (`zksk/primitives/rangeproof.py:270-306`) for a `Secret` `x`; `g`, `h` are
`group.hash_to_point(b"g")` and `group.hash_to_point(b"h")` of the default group, the randomizer `r`
is the secret at address `next`. -/
def rangeOnlyStmt (g h : Pt E) (a b : Int) (x : Sec) (next : Nat) : PM (Stmt E) := do
  let v ← draw g.grp.order
  let σ ← getStore
  let σ1 := σ.setValue next v
  setStore σ1
  let com ← match σ1.value x, σ1.value next with
    | some xv, some rv => liftE ((Pt.smul xv g).add (Pt.smul rv h))
    | _, _ => raise .incompleteValues
  let (σ2, t) ← liftE (rangeStmt σ1 com g h a b x next (next + 1))
  setStore σ2
  pure t

end Zksk
