import Verif.SpecRun

/-! # Provers with different values of the secrets -/

namespace Zksk.Spec

variable {E : Type} [AddCommGroup E] [DecidableEq E]

/-- Two people prove the same statement, one with heap `σ`, dictionary `d` and values `X` of the secrets, the
other one with `σ'`, `d'` and `X'`.  They are in the same position: the same clauses of disjunctions are marked as
simulated, and of each other clause both can prove it (`true`: all values are given, and they make it true) or
none can (`false`: a value is missing for each of them, or the composition is marked, or the clauses of the
disjunction that are not marked cannot be proved). -/
inductive Peers (σ : Store) (d : Dict Int) (X : Key → Int) (σ' : Store) (d' : Dict Int) (X' : Key → Int) :
    Bool → Core E → Core E → Prop
  | rep (s s' : DLRep E) (hv : ∀ x ∈ s.secretVars, given σ d s x = some (X (σ.key x)))
      (h : Holds σ (.leaf s) X) (hv' : ∀ x ∈ s'.secretVars, given σ' d' s' x = some (X' (σ'.key x)))
      (h' : Holds σ' (.leaf s') X') : Peers σ d X σ' d' X' true (.leaf s) (.leaf s')
  | lack (s s' : DLRep E) (x x' : Sec) (hx : x ∈ s.secretVars) (h : given σ d s x = none)
      (hx' : x' ∈ s'.secretVars) (h' : given σ' d' s' x' = none) :
      Peers σ d X σ' d' X' false (.leaf s) (.leaf s')
  | all (subs subs' : List (Core E))
      (h : ∀ (i : Nat) t t', subs[i]? = some t → subs'[i]? = some t' → Peers σ d X σ' d' X' true t t') :
      Peers σ d X σ' d' X' true (.and false subs) (.and false subs')
  | markedAll (subs subs' : List (Core E)) : Peers σ d X σ' d' X' false (.and true subs) (.and true subs')
  | markedAny (subs subs' : List (Core E)) : Peers σ d X σ' d' X' false (.or true subs) (.or true subs')
  | any (subs subs' : List (Core E)) (can : Nat → Bool) (b : Bool)
      (hm : ∀ (i : Nat) t t', subs[i]? = some t → subs'[i]? = some t' → (unmarked t ↔ unmarked t'))
      (h : ∀ (i : Nat) t t', subs[i]? = some t → subs'[i]? = some t' → unmarked t →
        Peers σ d X σ' d' X' (can i) t t')
      (hb : b = true ↔ ∃ i t, subs[i]? = some t ∧ unmarked t ∧ can i = true) :
      Peers σ d X σ' d' X' b (.or false subs) (.or false subs')

/-- The same distribution of results, of programs that need not read a fixed amount of random numbers: for every
block length from some one on, the blocks of uniform numbers below `q` can be matched one to one such that `p`,
started with heap `σ` and a random stream beginning with a block, returns the same value (or raises the same
exception) as `p'`, started with `σ'` and the matching block. -/
def SameResults {A : Type} (q : Nat) (p : PM A) (σ : Store) (p' : PM A) (σ' : Store) : Prop :=
  ∃ N, ∀ n, N ≤ n → ∃ e : Equiv.Perm (Fin n → Fin q), ∀ (y : Fin n → Fin q) (rest : Nat → Nat),
    (p ⟨σ, tape y rest⟩).map Prod.fst = (p' ⟨σ', tape (e y) rest⟩).map Prod.fst

/-- No exception occurs when the random stream begins with a long enough block of numbers below `q`. -/
def Succeeds {A : Type} (q : Nat) (p : PM A) (σ : Store) : Prop :=
  ∃ N, ∀ n, N ≤ n → ∀ (y : Fin n → Fin q) (rest : Nat → Nat), ∃ v w, p ⟨σ, tape y rest⟩ = .ok (v, w)

/-- The proof that `stmt.prove(secret_dict, message)` returns, without the statement object. -/
def proofOf (env : Env E) (t : Core E) (d : Dict Int) (message : String) : PM (NIZK E) := do
  let (π, _) ← prove (DLRepProver E) env t d message
  pure π

end Zksk.Spec
