import Verif.Lemmas.PretendProof
import Verif.Props.Pretend
import Verif.Props.Fork

/-! # C94: non-interactive proofs of disjunctions show at most which clauses the prover can prove -/

set_option linter.unusedSectionVars false

namespace Zksk.Props

open Spec

variable {E : Type} [AddCommGroup E] [DecidableEq E]

/-- **C94** An outsider who is told for which secrets there are values, but has other numbers instead of them, and who
may choose one answer `a` of the hash function, makes the very proofs of the prover: the random numbers of the prover
can be translated one-to-one into random numbers of the outsider such that `prove()` makes the same proof if the hash
function answers the outsider's question `q` by `a`, and otherwise as it likes. -/
theorem C94_same_proofs (env : Env E) (henv : Readable env) (t t' : Core E) (message : String) (M : Nat) (hM0 : M ≠ 0)
    (hM : ∀ x b, (x, b) ∈ terms t → b.grp.order ∣ M) (hs : Solid t) (ht : Torsion t)
    (hshape : shape t' = shape t) (hsec : secrets t' = secrets t)
    (σ σ' : Store) (d d' : Dict Int) (X : Key → Int)
    (hd : d.Uniq (heapFor σ d t)) (hd' : d'.Uniq (heapFor σ' d' t')) (hc : Composable (heapFor σ d t) t)
    (hsee : SeesSame (heapFor σ d t) (heapFor σ' d' t') (secrets t))
    (hp : Informed (heapFor σ d t) d X (heapFor σ' d' t') d' true t t') :
    ∃ N, ∀ n, N ≤ n → ∀ a, ∃ e : Equiv.Perm (Fin n → Fin M), ∀ (y : Fin n → Fin M) (rest : Nat → Nat),
      ∃ π q u w w',
        prove (DLRepProver E) (rehash env (answering env.sha q a)) t d message ⟨σ, tape y rest⟩ = .ok ((π, u), w) ∧
        pretendedProof env t' d' a message ⟨σ', tape (e y) rest⟩ = .ok ((π, q), w') ∧ w.rng = w'.rng :=
  Ward.same_proofs ⟨hM0, hs, ht, hM, hshape, hsec, hd, hd', hc, hsee, hp⟩ env henv message

/-- **C94** In numbers, for every hash function and every encoding: over the long enough blocks of uniform numbers below
`M`, the prover makes every proof exactly as often as the outsider makes it with the answer that the hash function
gives to the question that goes with the proof. -/
theorem C94_same_distribution (env : Env E) (t t' : Core E) (message : String) (M : Nat) (hM0 : M ≠ 0)
    (hM : ∀ x b, (x, b) ∈ terms t → b.grp.order ∣ M) (hs : Solid t) (ht : Torsion t)
    (hshape : shape t' = shape t) (hsec : secrets t' = secrets t)
    (σ σ' : Store) (d d' : Dict Int) (X : Key → Int)
    (hd : d.Uniq (heapFor σ d t)) (hd' : d'.Uniq (heapFor σ' d' t')) (hc : Composable (heapFor σ d t) t)
    (hsee : SeesSame (heapFor σ d t) (heapFor σ' d' t') (secrets t))
    (hp : Informed (heapFor σ d t) d X (heapFor σ' d' t') d' true t t') :
    ∃ N, ∀ n, N ≤ n → ∀ (rest : Nat → Nat) (π : NIZK E),
      Nat.card {y : Fin n → Fin M // ∃ u w, prove (DLRepProver E) env t d message ⟨σ, tape y rest⟩ = .ok ((π, u), w)} =
      Nat.card {y : Fin n → Fin M //
        ∃ q w, pretendedProof env t' d' (env.sha q) message ⟨σ', tape y rest⟩ = .ok ((π, q), w)} := by
  obtain ⟨N, hN⟩ := Ward.same_numbers ⟨hM0, hs, ht, hM, hshape, hsec, hd, hd', hc, hsee, hp⟩ env message
  refine ⟨N, fun n hn rest π => ?_⟩
  obtain ⟨e, he⟩ := hN n hn rest π
  exact Nat.card_congr (e.subtypeEquiv he)

/-- The hypotheses are met by the disjunction of `1 = x0·1 + x1·2` and `5 = x2·3` in `ℤ/7ℤ`, of which the prover knows
`x0` and `x1`, and the outsider nothing but that. -/
example := have ⟨h1, h2, h3, h4, h5, h6, h7, h8, h9, h10, h11⟩ := exPretend_pair
  C94_same_proofs (Ex.lengthEnv [0]) (Ex.readable_lengthEnv _) _ _ "m" 7 h1 h4 h2 h3 h5 h6 _ _ _ _ _ h7 h8 h9 h10 h11

example := have ⟨h1, h2, h3, h4, h5, h6, h7, h8, h9, h10, h11⟩ := exPretend_pair
  C94_same_distribution (Ex.lengthEnv [0]) _ _ "m" 7 h1 h4 h2 h3 h5 h6 _ _ _ _ _ h7 h8 h9 h10 h11

end Zksk.Props
