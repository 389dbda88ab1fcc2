import Verif.Spec
import Verif.Model.Ext
import Mathlib.Algebra.BigOperators.Group.List.Basic

/-!
# Specification vocabulary for statements and transcripts

Declarative counterparts of what a verifier is supposed to check.  Nothing here calls a function of
the verifier or prover model; only the data types (`Tree`, `DLRep`, `Val`, …) and Python indexing
(`Val.index`, `Val.elems`) are used.
-/

namespace Zksk

open Spec

/-- The keys of a dictionary are pairwise different. -/
def Dict.Uniq {α : Type} (σ : Store) : Dict α → Prop
  | [] => True
  | kv :: d => Dict.get? σ d kv.1 = none ∧ Dict.Uniq σ d

/-! ### Reading a statement identifier -/

namespace PId

variable {E : Type}

mutual
/-- The shape recorded in a statement identifier. -/
def skel : PId E → Skel E
  | .dlrep bs ids lhs => .rep lhs bs ids.length
  | .comp cls subs => if cls = "AndProofStmt" then .all (skelL subs) else .any (skelL subs)
  | .ext cls v id => .ext cls v (skel id)
/-- Shapes of a list of identifiers. -/
def skelL : List (PId E) → List (Skel E)
  | [] => []
  | a :: as => skel a :: skelL as
end

mutual
/-- The secret identifiers recorded in a statement identifier, left to right. -/
def ids : PId E → List Nat
  | .dlrep _ ids _ => ids
  | .comp _ subs => idsL subs
  | .ext _ _ id => ids id
/-- Identifiers of a list. -/
def idsL : List (PId E) → List Nat
  | [] => []
  | a :: as => ids a ++ idsL as
end

mutual
/-- Class names of compositions are one of the two the library uses. -/
def WF : PId E → Prop
  | .dlrep _ _ _ => True
  | .comp cls subs => (cls = "AndProofStmt" ∨ cls = "OrProofStmt") ∧ WFL subs
  | .ext _ _ id => WF id
/-- `WF` for lists. -/
def WFL : List (PId E) → Prop
  | [] => True
  | a :: as => WF a ∧ WFL as
end

end PId

end Zksk

namespace Zksk.Spec

variable {E : Type} [AddCommGroup E]

/-- What makes two `Secret` objects the same dictionary key: name and current value. -/
abbrev Key := String × Option Int

mutual
/-- The shape of a statement over discrete-logarithm representations. -/
def shape : Core E → Skel E
  | .leaf s => .rep s.lhs s.bases s.secretVars.length
  | .and _ subs => .all (shapeL subs)
  | .or _ subs => .any (shapeL subs)
/-- Shapes of a list of statements. -/
def shapeL : List (Core E) → List (Skel E)
  | [] => []
  | t :: ts => shape t :: shapeL ts
end

mutual
/-- All occurrences of secrets in a statement, left to right. -/
def secrets : Core E → List Sec
  | .leaf s => s.secretVars
  | .and _ subs => secretsL subs
  | .or _ subs => secretsL subs
/-- Occurrences in a list of statements. -/
def secretsL : List (Core E) → List Sec
  | [] => []
  | t :: ts => secrets t ++ secretsL ts
end

mutual
/-- All terms `secret * base` of a statement, left to right. -/
def terms : Core E → List (Sec × Pt E)
  | .leaf s => s.secretVars.zip s.bases
  | .and _ subs => termsL subs
  | .or _ subs => termsL subs
/-- Terms of a list of statements. -/
def termsL : List (Core E) → List (Sec × Pt E)
  | [] => []
  | t :: ts => terms t ++ termsL ts
end

mutual
/-- What the constructors guarantee: every representation has as many secrets as bases, no composition
is empty. -/
def WellFormed : Core E → Prop
  | .leaf s => s.secretVars.length = s.bases.length
  | .and _ subs => subs ≠ [] ∧ WellFormedL subs
  | .or _ subs => subs ≠ [] ∧ WellFormedL subs
/-- `WellFormed` for lists. -/
def WellFormedL : List (Core E) → Prop
  | [] => True
  | t :: ts => WellFormed t ∧ WellFormedL ts
end

mutual
/-- The shape of a general statement; undefined while some extended statement in it has not been
constructed. -/
def stmtShape : Stmt E → Option (Skel E)
  | .leaf (.dlrep s) => some (.rep s.lhs s.bases s.secretVars.length)
  | .leaf (.ext s) => s.constructed.map fun t => .ext s.spec.cls s.precommitment (shape t)
  | .and _ subs => (stmtShapeL subs).map .all
  | .or _ subs => (stmtShapeL subs).map .any
/-- Shapes of a list of statements. -/
def stmtShapeL : List (Stmt E) → Option (List (Skel E))
  | [] => some []
  | t :: ts => (stmtShape t).bind fun a => (stmtShapeL ts).map (a :: ·)
end

mutual
/-- All occurrences of secrets in a general statement, left to right. -/
def stmtSecrets : Stmt E → Option (List Sec)
  | .leaf (.dlrep s) => some s.secretVars
  | .leaf (.ext s) => s.constructed.map secrets
  | .and _ subs => stmtSecretsL subs
  | .or _ subs => stmtSecretsL subs
/-- Occurrences in a list of statements. -/
def stmtSecretsL : List (Stmt E) → Option (List Sec)
  | [] => some []
  | t :: ts => (stmtSecrets t).bind fun a => (stmtSecretsL ts).map (a ++ ·)
end

/-- `com` is the commitment determined by challenge `c` and responses `r`.
* representation: `com = Σ rᵢ Gᵢ - c · lhs`, all in one group;
* conjunction: componentwise, with the same challenge;
* disjunction: the responses carry a list of integer sub-challenges whose sum is the challenge modulo
  2^128, and each clause is computed with its own sub-challenge. -/
inductive Eqns : Core E → Int → Val E → Val E → Prop
  | rep (s : DLRep E) (c : Int) (r : Val E) (vs : List (Val E)) (ws : List Int)
      (hr : r.elems = .ok vs) (hlen : s.lhs.grp.strict = true → vs.length = s.bases.length)
      (hws : vs.take s.bases.length = ws.map .int)
      (hgrp : ∀ b ∈ s.bases.take ws.length, b.grp = s.lhs.grp) :
      Eqns (.leaf s) c r
        (.pt ⟨s.lhs.grp, (List.zipWith (fun w b => w • b.val) ws s.bases).sum - c • s.lhs.val⟩)
  | all (sim : Bool) (subs : List (Core E)) (c : Int) (r : Val E) (coms : List (Val E))
      (ri : Nat → Val E) (hlen : coms.length = subs.length)
      (hri : ∀ i, i < subs.length → r.index i = .ok (ri i))
      (h : ∀ i t com, subs[i]? = some t → coms[i]? = some com → Eqns t c (ri i) com) :
      Eqns (.and sim subs) c r (.list coms)
  | any (sim : Bool) (subs : List (Core E)) (c : Int) (r rs : Val E) (cs : List Int)
      (coms : List (Val E)) (ri : Nat → Val E) (hcs : r.index 0 = .ok (.list (cs.map .int)))
      (hrs : r.index 1 = .ok rs) (hsum : cs.sum % 2 ^ 128 = c % 2 ^ 128)
      (hlen : coms.length = subs.length) (hlen' : subs.length ≤ cs.length)
      (hri : ∀ i, i < subs.length → rs.index i = .ok (ri i))
      (h : ∀ i t com ci, subs[i]? = some t → coms[i]? = some com → cs[i]? = some ci →
        Eqns t ci (ri i) com) :
      Eqns (.or sim subs) c r (.list coms)

/-- The responses `r` give every secret one response `ρ`: outside or-clauses all occurrences of a
secret are given the same response; inside an or-clause the same holds with an assignment of its
own. -/
inductive Agree (σ : Store) : Core E → Val E → (Key → Val E) → Prop
  | rep (s : DLRep E) (r : Val E) (ρ : Key → Val E)
      (h : ∀ i x, s.secretVars[i]? = some x → r.index i = .ok (ρ (σ.key x))) :
      Agree σ (.leaf s) r ρ
  | all (sim : Bool) (subs : List (Core E)) (r : Val E) (ρ : Key → Val E) (ri : Nat → Val E)
      (hri : ∀ i, i < subs.length → r.index i = .ok (ri i))
      (h : ∀ i t, subs[i]? = some t → Agree σ t (ri i) ρ) :
      Agree σ (.and sim subs) r ρ
  | any (sim : Bool) (subs : List (Core E)) (r rs : Val E) (ρ : Key → Val E) (ri : Nat → Val E)
      (ρi : Nat → Key → Val E) (hrs : subs ≠ [] → r.index 1 = .ok rs)
      (hri : ∀ i, i < subs.length → rs.index i = .ok (ri i))
      (h : ∀ i t, subs[i]? = some t → Agree σ t (ri i) (ρi i)) :
      Agree σ (.or sim subs) r ρ

/-- Secret `x` occurs in the statement, outside or-clauses, and `r` gives this occurrence the response
`v`. -/
inductive Occ : Core E → Val E → Sec → Val E → Prop
  | rep (s : DLRep E) (r : Val E) (i : Nat) (x : Sec) (v : Val E)
      (hx : s.secretVars[i]? = some x) (hr : r.index i = .ok v) : Occ (.leaf s) r x v
  | all (sim : Bool) (subs : List (Core E)) (r ri : Val E) (i : Nat) (t : Core E) (x : Sec)
      (v : Val E) (ht : subs[i]? = some t) (hr : r.index i = .ok ri) (h : Occ t ri x v) :
      Occ (.and sim subs) r x v

/-- The responses have an entry for every occurrence of a secret. -/
inductive Covers : Core E → Val E → Prop
  | rep (s : DLRep E) (r : Val E) (h : ∀ i, i < s.secretVars.length → ∃ v, r.index i = .ok v) :
      Covers (.leaf s) r
  | all (sim : Bool) (subs : List (Core E)) (r : Val E) (ri : Nat → Val E)
      (hri : ∀ i, i < subs.length → r.index i = .ok (ri i))
      (h : ∀ i t, subs[i]? = some t → Covers t (ri i)) : Covers (.and sim subs) r
  | any (sim : Bool) (subs : List (Core E)) (r rs : Val E) (ri : Nat → Val E)
      (hrs : r.index 1 = .ok rs) (hri : ∀ i, i < subs.length → rs.index i = .ok (ri i))
      (h : ∀ i t, subs[i]? = some t → Covers t (ri i)) : Covers (.or sim subs) r

/-- The statement is true for the values `X` of the secrets: representations hold as equations in one
group, a conjunction needs one assignment for all conjuncts, a disjunction needs one clause, true for
some values of its own. -/
inductive Holds (σ : Store) : Core E → (Key → Int) → Prop
  | rep (s : DLRep E) (X : Key → Int) (hgrp : ∀ b ∈ s.bases, b.grp = s.lhs.grp)
      (h : s.lhs.val = (List.zipWith (fun x b => X (σ.key x) • b.val) s.secretVars s.bases).sum) :
      Holds σ (.leaf s) X
  | all (sim : Bool) (subs : List (Core E)) (X : Key → Int) (h : ∀ t ∈ subs, Holds σ t X) :
      Holds σ (.and sim subs) X
  | any (sim : Bool) (subs : List (Core E)) (X X' : Key → Int) (t : Core E) (ht : t ∈ subs)
      (h : Holds σ t X') : Holds σ (.or sim subs) X

/-- The values the secret objects themselves have. -/
def valueOf : Key → Int := fun κ => κ.2.getD 0

mutual
/-- Statements one can work with: no empty composition, and every representation has as many secrets as
bases, at least one, and all its points are from one group of nonzero order. -/
def Solid : Core E → Prop
  | .leaf s => s.secretVars.length = s.bases.length ∧ s.bases ≠ [] ∧
      (∀ b ∈ s.bases, b.grp = s.lhs.grp) ∧ s.lhs.grp.order ≠ 0
  | .and _ subs => subs ≠ [] ∧ SolidL subs
  | .or _ subs => subs ≠ [] ∧ SolidL subs
/-- `Solid` for lists. -/
def SolidL : List (Core E) → Prop
  | [] => True
  | t :: ts => Solid t ∧ SolidL ts
end

/-- Going down from the first statement through conjunctions only one reaches the disjunction `u`; the
lists are the occurrences of secrets before and after it. -/
inductive OrAt : Core E → List Sec → Core E → List Sec → Prop
  | here (b : Bool) (subs : List (Core E)) : OrAt (.or b subs) [] (.or b subs) []
  | down (b : Bool) (ls : List (Core E)) (t : Core E) (rs : List (Core E)) (pre post : List Sec)
      (u : Core E) (h : OrAt t pre u post) :
      OrAt (.and b (ls ++ t :: rs)) (secretsL ls ++ pre) u (post ++ secretsL rs)

/-- No secret of a disjunction reachable through conjunctions occurs outside this disjunction. -/
def OrsPrivate (σ : Store) (t : Core E) : Prop :=
  ∀ pre u post, OrAt t pre u post → ∀ x ∈ secrets u, ∀ y ∈ pre ++ post, σ.key x ≠ σ.key y

/-- Every secret occurs only with bases of groups of one order. -/
def SameOrders (σ : Store) (k : Core E) : Prop :=
  ∀ x b y c, (x, b) ∈ terms k → (y, c) ∈ terms k → σ.key x = σ.key y → b.grp.order = c.grp.order

/-- The composition rules hold everywhere in the statement. -/
inductive Composable (σ : Store) : Core E → Prop
  | leaf (s : DLRep E) : Composable σ (.leaf s)
  | and (b : Bool) (subs : List (Core E)) (ho : SameOrders σ (.and b subs))
      (hp : OrsPrivate σ (.and b subs)) (h : ∀ t ∈ subs, Composable σ t) : Composable σ (.and b subs)
  | or (b : Bool) (subs : List (Core E)) (ho : SameOrders σ (.or b subs))
      (h : ∀ t ∈ subs, Composable σ t) : Composable σ (.or b subs)

/-- The order of a group annihilates the bases from this group. -/
def Torsion (k : Core E) : Prop := ∀ x b, (x, b) ∈ terms k → (b.grp.order : Int) • b.val = 0

/-- Canonical identifiers of a list of names: the position of each name among the distinct names in
order of first occurrence. -/
def canonicalIds (names : List String) : List Nat :=
  names.map fun n => (distinct names).idxOf n

/-- `id` is the identifier of a statement of shape `S` whose secrets, left to right, are named
`names`. -/
def IsId (S : Skel E) (names : List String) (id : PId E) : Prop :=
  id.WF ∧ id.skel = S ∧ id.ids = canonicalIds names

/-- A verifier with heap `σv` sees the secrets `vs` with the same name pattern as the prover, and does not
identify secrets that the prover distinguishes. -/
def Sees (σ σv : Store) (vs : List Sec) : Prop :=
  SamePattern (vs.map σ.name) (vs.map σv.name) ∧
    ∀ x ∈ vs, ∀ y ∈ vs, σv.key x = σv.key y → σ.key x = σ.key y

/-- The same for a verifier with secret objects `vsv` of its own, in place of the prover's `vs`. -/
def SeesAs (σ : Store) (vs : List Sec) (σv : Store) (vsv : List Sec) : Prop :=
  SamePattern (vs.map σ.name) (vsv.map σv.name) ∧
    ∀ (i j : Nat) (x y xv yv : Sec), vs[i]? = some x → vs[j]? = some y → vsv[i]? = some xv →
      vsv[j]? = some yv → σv.key xv = σv.key yv → σ.key x = σ.key y

mutual
/-- A statement without extended parts, seen as a general statement. -/
def embed : Core E → Stmt E
  | .leaf s => .leaf (.dlrep s)
  | .and b subs => .and b (embedL subs)
  | .or b subs => .or b (embedL subs)
/-- `embed` for lists. -/
def embedL : List (Core E) → List (Stmt E)
  | [] => []
  | t :: ts => embed t :: embedL ts
end

/-- With precommitment `v`, statement `t` has shape `S` and stands for the plain statement `k`:
every extended statement in it is replaced by what it constructs from its own part of `v`, and its
validation accepts that part.  A missing precommitment (`None`) is only possible where there is no
extended statement. -/
inductive Digested (σ : Store) : Stmt E → Val E → Skel E → Core E → Prop
  | bare (k : Core E) : Digested σ (embed k) .none (shape k) k
  | rep (s : DLRep E) (v : Val E) :
      Digested σ (.leaf (.dlrep s)) v (.rep s.lhs s.bases s.secretVars.length) (.leaf s)
  | ext (s : Ext E) (v : Val E) (t : Core E) (hc : s.spec.construct σ v = .ok t)
      (hv : s.spec.validate v = .ok ()) :
      Digested σ (.leaf (.ext s)) v (.ext s.spec.cls v (shape t)) t
  | all (b : Bool) (subs : List (Stmt E)) (v : Val E) (vi : Nat → Val E) (Ss : List (Skel E))
      (ks : List (Core E)) (hv : v ≠ .none) (hS : Ss.length = subs.length)
      (hk : ks.length = subs.length) (hvi : ∀ i, i < subs.length → v.index i = .ok (vi i))
      (h : ∀ i t S k, subs[i]? = some t → Ss[i]? = some S → ks[i]? = some k →
        Digested σ t (vi i) S k) :
      Digested σ (.and b subs) v (.all Ss) (.and b ks)
  | any (b : Bool) (subs : List (Stmt E)) (v : Val E) (vi : Nat → Val E) (Ss : List (Skel E))
      (ks : List (Core E)) (hv : v ≠ .none) (hS : Ss.length = subs.length)
      (hk : ks.length = subs.length) (hvi : ∀ i, i < subs.length → v.index i = .ok (vi i))
      (h : ∀ i t S k, subs[i]? = some t → Ss[i]? = some S → ks[i]? = some k →
        Digested σ t (vi i) S k) :
      Digested σ (.or b subs) v (.any Ss) (.or b ks)

/-- What a verifier makes of statement `t` and the precommitment of a proof: without a precommitment
no extended statement may occur (not even at the root). -/
def DigestedTop (σ : Store) (t : Stmt E) (v : Val E) (S : Skel E) (k : Core E) : Prop :=
  (v = .none ∧ t = embed k ∧ S = shape k) ∨ (v ≠ .none ∧ Digested σ t v S k)

end Zksk.Spec
