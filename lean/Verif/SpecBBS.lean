import Verif.Model.BBS

/-! # What BBS+ signatures are, independently of the code that makes and checks them -/

namespace Zksk.Spec

variable {E : Type} [AddCommGroup E] [DecidableEq E]

/-- `Σ mᵢ gᵢ`, up to the end of the shorter list. -/
def lin (ms : List Int) (gs : List (Pt E)) : E := (List.zipWith (fun m g => m • g.val) ms gs).sum

/-- A public key in working order: the generators are points of `G1`, at least two, the other two points are
from `G2`, and the precomputed pairings are those of the generators with `h0`. -/
structure GoodKey (P : Pairing E) (pk : PublicKey E) : Prop where
  len : 2 ≤ pk.generators.length
  g1 : ∀ g ∈ pk.generators, g.grp = P.G1
  h0 : pk.h0.grp = P.G2
  w : pk.w.grp = P.G2
  pairs : pk.genPairs = pk.generators.map fun g => ⟨P.GT, P.e g.val pk.h0.val⟩

/-- A secret key and its public key: same generators and `h0`, the latter of the order of the groups, and
`w = γ h0`. -/
structure KeyPair (P : Pairing E) (sk : SecretKey E) (pk : PublicKey E) : Prop where
  good : GoodKey P pk
  gens : sk.generators = pk.generators
  h0 : sk.h0 = pk.h0
  ord : (P.order : Int) • pk.h0.val = 0
  w : pk.w.val = sk.gamma • pk.h0.val

/-- The equation `e(A, w + e h0) = e(g0 + s g1 + Σ mᵢ g_{i+2}, h0)` of BBS+ signatures. -/
def SigEq (P : Pairing E) (pk : PublicKey E) (A : E) (e s : Int) (ms : List Int) : Prop :=
  ∃ g0 g1 gs, pk.generators = g0 :: g1 :: gs ∧
    P.e A (pk.w.val + e • pk.h0.val) = P.e (g0.val + s • g1.val + lin ms gs) pk.h0.val

/-- `c'` is a signature creator after some calls of `commit()`, given by their messages and `zkp`, on a
creator `c`; in between anything may happen to the rest of the world. -/
inductive After (env : Env E) : Creator E → List (List Int × Bool) → Creator E → Prop
  | none (c : Creator E) : After env c [] c
  | call (c c1 c2 : Creator E) (calls : List (List Int × Bool)) (ms : List Int) (zkp : Bool) (next : Nat)
      (w w' : World) (m : UserCommitment E) (h : After env c calls c1)
      (hc : c1.commit env ms zkp next w = .ok ((m, c2), w')) : After env c (calls ++ [(ms, zkp)]) c2

end Zksk.Spec
