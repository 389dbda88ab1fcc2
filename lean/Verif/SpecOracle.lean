import Verif.SpecQuery
import Verif.SpecRun
import Mathlib.SetTheory.Cardinal.Finite
import Mathlib.Data.Finset.Card

/-! # Random hash functions and those who ask them -/

namespace Zksk.Spec

variable {E : Type} [AddCommGroup E] [DecidableEq E]

/-- The hash function that answers the questions in `Q` from the table `H`, with answers in `Ans`, and all other
questions like `sha`.  A random hash function is one with a random table. -/
def oracle (sha : List UInt8 → List UInt8) (Q Ans : Finset (List UInt8)) (H : {x // x ∈ Q} → {a // a ∈ Ans}) :
    List UInt8 → List UInt8 :=
  fun x => if h : x ∈ Q then (H ⟨x, h⟩).1 else sha x

/-- Somebody who asks the hash function at most `k` questions, the later ones depending on the answers to the earlier
ones, is then shown a proof, and may then look up as many answers as they like.  They say `D f h π` if the hash function
was `f` before, is `h` afterwards, and the proof is `π`; `S f` are the questions asked before. -/
structure Observer (k : Nat) (S : (List UInt8 → List UInt8) → Finset (List UInt8))
    (D : (List UInt8 → List UInt8) → (List UInt8 → List UInt8) → NIZK E → Prop) : Prop where
  few : ∀ f, (S f).card ≤ k
  asked : ∀ f g, (∀ s ∈ S f, g s = f s) → ∀ h π, D f h π ↔ D g h π

/-- Somebody who asks the hash function `f` at most `k` questions `S f`, the later ones depending on the answers to the
earlier ones, and makes the proof and message `out f` of the answers. -/
structure Attacker (k : Nat) (S : (List UInt8 → List UInt8) → Finset (List UInt8))
    (out : (List UInt8 → List UInt8) → NIZK E × String) : Prop where
  few : ∀ f, (S f).card ≤ k
  asked : ∀ f g, (∀ s ∈ S f, g s = f s) → S g = S f ∧ out g = out f

/-- The number of tables of answers with which the proof that the attacker makes is accepted. -/
noncomputable def accepted {L : Type} [StmtOps E L] (env : Env E) (Q Ans : Finset (List UInt8)) (σ : Store) (t : Tree L)
    (out : (List UInt8 → List UInt8) → NIZK E × String) : Nat :=
  Nat.card {H : {x // x ∈ Q} → {a // a ∈ Ans} // verify (rehash env (oracle env.sha Q Ans H)) σ t
    (out (oracle env.sha Q Ans H)).1 (out (oracle env.sha Q Ans H)).2 = .ok true}

/-- The number of cases in which somebody who says `D before after proof` is shown a proof made by `make` and says yes.  A
case is a table of answers and a block of `n` random numbers below `M`. -/
noncomputable def yesToProofs {T : Type} (env : Env E) (Q Ans : Finset (List UInt8)) (n M : Nat) (rest : Nat → Nat)
    (D : (List UInt8 → List UInt8) → (List UInt8 → List UInt8) → NIZK E → Prop) (make : Env E → PM (NIZK E × T)) (σ : Store) : Nat :=
  Nat.card {p : ({x // x ∈ Q} → {a // a ∈ Ans}) × (Fin n → Fin M) // ∃ π t w,
    make (rehash env (oracle env.sha Q Ans p.1)) ⟨σ, tape p.2 rest⟩ = .ok ((π, t), w) ∧
    D (oracle env.sha Q Ans p.1) (oracle env.sha Q Ans p.1) π}

/-- The same if the proof is made up by `make`, which is told a random answer, and names the question that is answered so
from then on.  A case is a table of answers, an answer, and a block of random numbers. -/
noncomputable def yesToPretended (env : Env E) (Q Ans : Finset (List UInt8)) (n M : Nat) (rest : Nat → Nat)
    (D : (List UInt8 → List UInt8) → (List UInt8 → List UInt8) → NIZK E → Prop)
    (make : Env E → List UInt8 → PM (NIZK E × List UInt8)) (σ : Store) : Nat :=
  Nat.card {p : ({x // x ∈ Q} → {a // a ∈ Ans}) × {a // a ∈ Ans} × (Fin n → Fin M) // ∃ π x w,
    make (rehash env (oracle env.sha Q Ans p.1)) p.2.1 ⟨σ, tape p.2.2 rest⟩ = .ok ((π, x), w) ∧
    D (oracle env.sha Q Ans p.1) (answering (oracle env.sha Q Ans p.1) x p.2.1) π}

end Zksk.Spec
