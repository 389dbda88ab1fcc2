import Verif.Model.Range
import Verif.Model.Expr
import Verif.Model.Nizk
import Verif.Model.Prover
import Mathlib.Algebra.Group.Hom.Basic
import Mathlib.Data.Int.GCD

/-! # BBS+ signatures (`zksk/primitives/bbsplus.py`) and pairings (`zksk/pairings.py`) -/

namespace Zksk

variable {E : Type} [AddCommGroup E] [DecidableEq E]

/-- A `BilinearGroupPair` (`zksk/pairings.py:15-32`): the groups `G1`, `G2`, `GT` and the pairing of the
library.  All three `order()` methods return the order of the `bplib` group (`:58-59,225-226,274-275`); their
`wsum` truncates (`:72-76,242-246,283-287`).  The pairing is assumed to be bilinear (trusted base).
Simplification: `AdditivePoint`'s multiplicative group is written additively, as by the class itself. -/
structure Pairing (E : Type) [AddCommGroup E] where
  id : Nat
  order : Nat
  e : E →+ E →+ E

namespace Pairing

/-- `bp.G1` -/
def G1 (P : Pairing E) : Grp := ⟨3 * P.id, P.order, false⟩
/-- `bp.G2` -/
def G2 (P : Pairing E) : Grp := ⟨3 * P.id + 1, P.order, false⟩
/-- `bp.GT` -/
def GT (P : Pairing E) : Grp := ⟨3 * P.id + 2, P.order, false⟩

/-- `p.pair(q)` (`zksk/pairings.py:157-158`): only `G1Point` has this method; the library refuses an
argument that is not in `G2`. -/
def pair (P : Pairing E) (p q : Pt E) : Except Err (Pt E) :=
  if p.grp = P.G1 then
    if q.grp = P.G2 then .ok ⟨P.GT, P.e p.val q.val⟩ else .error .foreign
  else .error .attributeError

end Pairing

/-- `l[i]` of a Python list. -/
def listAt {α : Type} (l : List α) (i : Nat) : Except Err α :=
  match l[i]? with
  | some a => .ok a
  | none => .error .indexError

/-- `BBSPlusSignature` (`zksk/primitives/bbsplus.py:22-30`). -/
structure Signature (E : Type) where
  A : Pt E
  e : Int
  s : Int

/-- `BBSPlusPublicKey` (`zksk/primitives/bbsplus.py:166-180`). -/
structure PublicKey (E : Type) where
  w : Pt E
  h0 : Pt E
  generators : List (Pt E)
  genPairs : List (Pt E)

/-- `BBSPlusSecretKey` (`zksk/primitives/bbsplus.py:183-192`). -/
structure SecretKey (E : Type) where
  h0 : Pt E
  gamma : Int
  generators : List (Pt E)

/-- `[g.pair(self.h0) for g in self.generators]` (`zksk/primitives/bbsplus.py:180`). -/
def pairAll (P : Pairing E) (h0 : Pt E) : List (Pt E) → Except Err (List (Pt E))
  | [] => .ok []
  | g :: gs => do
    let p ← P.pair g h0
    let ps ← pairAll P h0 gs
    .ok (p :: ps)

/-- `BBSPlusPublicKey(w, h0, generators)` with `__attrs_post_init__` (`zksk/primitives/bbsplus.py:166-180`). -/
def mkPublicKey (P : Pairing E) (w h0 : Pt E) (generators : List (Pt E)) : Except Err (PublicKey E) := do
  let ps ← pairAll P h0 generators
  .ok ⟨w, h0, generators, ps⟩

/-- `BBSPlusKeypair.generate` (`zksk/primitives/bbsplus.py:142-162`), `h0` being the value of
`bilinear_pair.G2.generator()`.  The default arguments of `make_generators` are 256 bits and seed 42. -/
def generateKeys (pe : PointEnv E) (P : Pairing E) (h0 : E) (numGenerators : Nat) :
    PM (SecretKey E × PublicKey E) := do
  let generators ← makeGenerators pe (numGenerators + 2) P.G1 256 (some 42)
  let h0 : Pt E := ⟨P.G2, h0⟩
  let gamma ← draw P.G1.order
  let pk ← liftE (mkPublicKey P (Pt.smul gamma h0) h0 generators)
  pure (⟨h0, gamma, generators⟩, pk)

namespace Signature

/-- `verify_signature` (`zksk/primitives/bbsplus.py:32-40`). -/
def verify (P : Pairing E) (sig : Signature E) (pk : PublicKey E) (messages : List Int) : Except Err Bool := do
  let generators := pk.generators.take (messages.length + 2)
  let g0 ← listAt generators 0
  let sum ← g0.grp.wsum ((sig.s :: messages).map .int) (generators.drop 1)
  let product ← g0.add sum
  let v ← pk.w.add (Pt.smul sig.e pk.h0)
  let l ← P.pair sig.A v
  let r ← P.pair product pk.h0
  .ok (decide (l = r))

end Signature

/-- `UserCommitmentMessage` (`zksk/primitives/bbsplus.py:43-52`). -/
structure UserCommitment (E : Type) where
  com : Pt E
  proof : Option (NIZK E)

/-- `wsum_secrets` followed by `DLRep(lhs, …)` (`zksk/expr.py:148-174`, `zksk/primitives/dlrep.py:84-106`):
the former insists on equal lengths and, having at least one pair, lists them in order (property C05). -/
def repOf (σ : Store) (lhs : Pt E) (secrets : List Sec) (bases : List (Pt E)) : Except Err (DLRep E) :=
  if secrets.length ≠ bases.length then .error .valueError
  else mkDLRep σ lhs secrets bases false

/-- `len(x)` of a Python value. -/
def Val.len : Val E → Except Err Nat
  | .str s => .ok s.length
  | .bytes b => .ok b.length
  | .list l => .ok l.length
  | .tuple l => .ok l.length
  | .dict l => .ok l.length
  | _ => .error .typeError

/-- `verify_blinding` (`zksk/primitives/bbsplus.py:54-67`); the new secrets have the addresses from `next`
on. -/
def UserCommitment.verifyBlinding (env : Env E) (σ : Store) (m : UserCommitment E) (pk : PublicKey E) (next : Nat) :
    Except Err Bool :=
  match m.proof with
  | none => .error .valueError
  | some nizk => do
    let n ← nizk.responses.len
    let s ← repOf σ m.com (freshSecs next n) ((pk.generators.drop 1).take n)
    verify env σ (.leaf s : Core E) nizk ""

/-- `BBSPlusSignatureCreator` (`zksk/primitives/bbsplus.py:70-80`). -/
structure Creator (E : Type) where
  pk : PublicKey E
  s1 : Option Int

namespace Creator

/-- `BBSPlusSignatureCreator(pk)` -/
def new (pk : PublicKey E) : Creator E := ⟨pk, none⟩

/-- `commit` (`zksk/primitives/bbsplus.py:82-111`); the new secrets have the addresses from `next` on. -/
def commit (env : Env E) (c : Creator E) (messages : List Int) (zkp : Bool) (next : Nat) :
    PM (UserCommitment E × Creator E) := do
  let g0 ← liftE (listAt c.pk.generators 0)
  let lhs ← liftE (g0.grp.wsum (messages.map .int) ((c.pk.generators.drop 2).take messages.length))
  match zkp with
  | false => pure (⟨lhs, none⟩, c)
  | true => do
    let s1 ← draw g0.grp.order
    let g1 ← liftE (listAt c.pk.generators 1)
    let lhs ← liftE ((Pt.smul s1 g1).add lhs)
    let vars := freshSecs next (messages.length + 1)
    let σ ← getStore
    let s ← liftE (repOf σ lhs vars ((c.pk.generators.drop 1).take (messages.length + 1)))
    let (nizk, _) ← prove (DLRepProver E) env (.leaf s) (vars.zip (s1 :: messages)) ""
    pure (⟨lhs, some nizk⟩, ⟨c.pk, some s1⟩)

/-- `obtain_signature` (`zksk/primitives/bbsplus.py:113-129`). -/
def obtainSignature (c : Creator E) (p : Signature E) : Signature E :=
  match c.s1 with
  | none => ⟨p.A, p.e, p.s⟩
  | some s1 => ⟨p.A, p.e, p.s + s1⟩

end Creator

/-- `a.mod_inverse(m)`: the library raises if there is no inverse. -/
def modInverse (a : Int) (m : Nat) : Except Err Int :=
  if Int.gcd a m = 1 then .ok (Int.gcdA a m % m) else .error .foreign

/-- `sign` (`zksk/primitives/bbsplus.py:194-209`). -/
def SecretKey.sign (sk : SecretKey E) (lhs : Pt E) : PM (Signature E) := do
  let e ← draw sk.h0.grp.order
  let s2 ← draw sk.h0.grp.order
  let g0 ← liftE (listAt sk.generators 0)
  let g1 ← liftE (listAt sk.generators 1)
  let p ← liftE (g0.add (Pt.smul s2 g1))
  let prod ← liftE (p.add lhs)
  let i ← liftE (modInverse (sk.gamma + e) sk.h0.grp.order)
  pure ⟨Pt.smul i prod, e, s2⟩

/-- A `BBSPlusSignatureStmt` object (`zksk/primitives/bbsplus.py:212-255`); `vars` are the secrets for `e`, `s`
and the messages. -/
structure BBS (E : Type) [AddCommGroup E] where
  P : Pairing E
  pk : PublicKey E
  signature : Option (Signature E)
  vars : List Sec
  r1 : Sec
  r2 : Sec
  delta1 : Sec
  delta2 : Sec

/-- `BBSPlusSignatureStmt(secret_vars, pk, signature, binding)` (`zksk/primitives/bbsplus.py:229-255`): the new
secrets have the addresses from `next` on.  Returns the heap after the call and the object. -/
def mkBBS (P : Pairing E) (σ : Store) (secretVars : List Sec) (pk : PublicKey E) (signature : Option (Signature E))
    (binding : Bool) (next : Nat) : Except Err (Store × BBS E) := do
  let vars := if binding then secretVars else next :: (next + 1) :: secretVars
  let n := if binding then next else next + 2
  let _ ← listAt (pk.generators.take vars.length) 0
  let s : BBS E := ⟨P, pk, signature, vars, n, n + 1, n + 2, n + 3⟩
  match signature with
  | none => .ok (σ, s)
  | some sig => do
    let v0 ← listAt vars 0
    let v1 ← listAt vars 1
    .ok ((σ.setValue v0 sig.e).setValue v1 sig.s, s)

namespace BBS

/-- `self.bases` -/
def bases (s : BBS E) : List (Pt E) := s.pk.generators.take s.vars.length

/-- `precommit` (`zksk/primitives/bbsplus.py:257-278`).  Without a signature the code refers to the undefined
name `ValueException`; that `NameError` is written `generic` here. -/
def precommit (s : BBS E) : PM (Val E) :=
  match s.signature with
  | none => raise .generic
  | some sig => do
    let b0 ← liftE (listAt s.bases 0)
    let order := b0.grp.order
    let r1 ← draw order
    let r2 ← draw order
    let σ ← getStore
    setStore ((((σ.setValue s.r1 r1).setValue s.r2 r2).setValue s.delta1 (r1 * sig.e % order)).setValue s.delta2
      (r2 * sig.e % order))
    let b1 ← liftE (listAt s.bases 1)
    let b2 ← liftE (listAt s.bases 2)
    let a1 ← liftE ((Pt.smul r1 b1).add (Pt.smul r2 b2))
    let a2 ← liftE ((Pt.smul r1 b2).add sig.A)
    pure (.dict [("A1", .pt a1), ("A2", .pt a2)])

/-- `construct_stmt` (`zksk/primitives/bbsplus.py:280-313`).  Simplification: entries of the precommitment that
are not points are refused at once. -/
def construct (s : BBS E) (σ : Store) (v : Val E) : Except Err (Core E) := do
  let a1 ← (← v.lookup "A1").asPt
  let a2 ← (← v.lookup "A2").asPt
  let g0 ← listAt s.bases 0
  let g1 ← listAt s.bases 1
  let g2 ← listAt s.bases 2
  let dl1 ← mkDLRep σ a1 [s.r1, s.r2] [g1, g2] false
  let e ← listAt s.vars 0
  let dl2 ← mkDLRep σ g0.grp.inf [s.delta1, s.delta2, e] [g1, g2, Pt.smul (-1) a1] false
  let aw ← s.P.pair a2 s.pk.w
  let p0 ← listAt s.pk.genPairs 0
  let lhs ← aw.add (Pt.smul (-1) p0)
  let ah ← s.P.pair a2 s.pk.h0
  let gw ← s.P.pair g2 s.pk.w
  let p2 ← listAt s.pk.genPairs 2
  let bases := [Pt.smul (-1) ah, gw, p2] ++ (s.pk.genPairs.take s.bases.length).drop 1
  let vars := s.vars.take 1 ++ [s.r1, s.delta1] ++ s.vars.drop 1
  let dl3 ← repOf σ lhs vars bases
  mkAnd [.leaf dl1, .leaf dl2, .leaf dl3]

/-- `simulate_precommit` (`zksk/primitives/bbsplus.py:315-324`), `gen` being the value of `group.generator()`. -/
def simPrecommit (s : BBS E) (gen : E) : PM (Val E) := do
  let b0 ← liftE (listAt s.bases 0)
  let k1 ← draw b0.grp.order
  let k2 ← draw b0.grp.order
  pure (.dict [("A1", .pt ⟨b0.grp, k1 • gen⟩), ("A2", .pt ⟨b0.grp, k2 • gen⟩)])

/-- The subclass; `validate` is inherited (`zksk/extended.py:72-80`) and accepts everything. -/
def spec (s : BBS E) (gen : E) : ExtSpec E where
  cls := "BBSPlusSignatureStmt"
  construct := s.construct
  validate _ := .ok ()
  precommit := s.precommit
  simPrecommit := s.simPrecommit gen

/-- The statement object right after `BBSPlusSignatureStmt(..., simulated)`. -/
def stmt (s : BBS E) (gen : E) (simulated : Bool) : Stmt E :=
  .leaf (.ext ⟨s.spec gen, simulated, .none, none, none⟩)

end BBS
end Zksk
