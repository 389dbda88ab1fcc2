import Verif.SpecQuery
import Verif.SpecHide

/-! # Random choices of the prover -/

namespace Zksk.Spec

variable {E : Type} [AddCommGroup E]

/-- The representation has as many secrets as bases, the orders of its groups are multiples of `q`, and a number below
`M` taken modulo one of them is uniform. -/
def Fits (q M : Nat) (s : DLRep E) : Prop :=
  s.secretVars.length = s.bases.length ∧ ∀ b ∈ s.bases, q ∣ b.grp.order ∧ b.grp.order ∣ M

/-- One of the secrets of the representation has a name that no other one of them has, and its base has at least `q`
different multiples. -/
def Fresh (q : Nat) (name : Sec → String) (s : DLRep E) : Prop :=
  ∃ (i : Nat) (x : Sec) (b : Pt E), s.secretVars[i]? = some x ∧ s.bases[i]? = some b ∧
    (∀ (j : Nat) (y : Sec), s.secretVars[j]? = some y → name y = name x → j = i) ∧ ∀ k : Nat, 0 < k → k < q → k • b.val ≠ 0

/-- Whichever clauses are chosen, there is a leaf with the property in the part that is really proved. -/
inductive Always {L : Type} [DecidableEq E] [StmtOps E L] (lv : L → Prop) : Tree L → Prop
  | leaf (l : L) (h : lv l) : Always lv (.leaf l)
  | all (b : Bool) (ts : List (Tree L)) (t : Tree L) (ht : t ∈ ts) (h : Always lv t) : Always lv (.and b ts)
  | any (b : Bool) (ts : List (Tree L)) (h : ∀ t ∈ ts, Tree.simulated t = false → Always lv t) : Always lv (.or b ts)

/-- A program, for a given heap, that reads random numbers one after the other until it fails or ends with a result in
`Q`. -/
inductive InTurn {A : Type} (Q : A → Store → Prop) : ((Nat → Nat) → Except Err (A × World)) → Prop
  | done {f : (Nat → Nat) → Except Err (A × World)} (a : A) (σ : Store) (h : Q a σ) (hf : ∀ r, f r = .ok (a, ⟨σ, r⟩)) :
      InTurn Q f
  | fail {f : (Nat → Nat) → Except Err (A × World)} (e : Err) (hf : ∀ r, f r = .error e) : InTurn Q f
  | step {f : (Nat → Nat) → Except Err (A × World)}
      (h : ∀ k : Nat, InTurn Q fun r => f fun i => match i with | 0 => k | i + 1 => r i) : InTurn Q f

/-- What is needed of an extended statement: the methods that make precommitments read numbers in turn, give no secret
another name and return no raw bytes; the constructed statements fit. -/
structure ExtFits [DecidableEq E] (q M : Nat) (name : Sec → String) (e : Ext E) : Prop where
  precommit : ∀ σ : Store, σ.name = name →
    InTurn (fun v τ => τ.name = name ∧ ∀ b, v ≠ .bytes b) fun r => e.spec.precommit ⟨σ, r⟩
  simPrecommit : ∀ σ : Store, σ.name = name → InTurn (fun _ τ => τ.name = name) fun r => e.spec.simPrecommit ⟨σ, r⟩
  construct : ∀ (σ : Store) v k, σ.name = name → e.spec.construct σ v = .ok k → ∀ s, HasLeaf s k → Fits q M s
  constructed : ∀ k, e.constructed = some k → ∀ s, HasLeaf s k → Fits q M s

/-- `Fits` for leaves. -/
def LeafFits [DecidableEq E] (q M : Nat) (name : Sec → String) : Leaf E → Prop
  | .dlrep s => Fits q M s
  | .ext e => ExtFits q M name e

/-- `Fresh` for leaves: there is such a representation in each constructed statement. -/
def LeafFresh [DecidableEq E] (q : Nat) (name : Sec → String) : Leaf E → Prop
  | .dlrep s => Fresh q name s
  | .ext e => ∀ (σ : Store) v k, σ.name = name → e.spec.construct σ v = .ok k → Always (Fresh q name) k

end Zksk.Spec
