import Verif.Lemmas.PretendRun
import Verif.Examples
import Mathlib.SetTheory.Cardinal.Finite

/-! # C93: runs show at most which clauses the prover can prove: they can be made without the values -/

set_option linter.unusedSectionVars false

namespace Zksk.Props

open Spec

variable {E : Type} [AddCommGroup E] [DecidableEq E]

/-- **C93** For every challenge, the interactive runs of a prover, and the runs that an outsider makes who is told for
which secrets there are values but has other numbers instead of them, and who knows the challenge in advance, have the
same distribution.  Neither raises an exception. -/
theorem C93_without_values (env : Env E) (t t' : Core E) (c : Int) (M : Nat) (hM0 : M ≠ 0)
    (hM : ∀ x b, (x, b) ∈ terms t → b.grp.order ∣ M) (hs : Solid t) (ht : Torsion t)
    (hshape : shape t' = shape t) (hsec : secrets t' = secrets t)
    (σ σ' : Store) (d d' : Dict Int) (X : Key → Int)
    (hd : d.Uniq (heapFor σ d t)) (hd' : d'.Uniq (heapFor σ' d' t')) (hc : Composable (heapFor σ d t) t)
    (hsee : SeesSame (heapFor σ d t) (heapFor σ' d' t') (secrets t))
    (hp : Informed (heapFor σ d t) d X (heapFor σ' d' t') d' true t t') :
    SameResults M (honestRun env t d c) σ (pretendedRun env t' d' c) σ' ∧
      Succeeds M (honestRun env t d c) σ ∧ Succeeds M (pretendedRun env t' d' c) σ' :=
  Ward.runs_pretended ⟨hM0, hs, ht, hM, hshape, hsec, hd, hd', hc, hsee, hp⟩ env c

/-- **C93** In numbers: for every long enough block of random numbers below `M`, each precommitment and transcript is
made by the prover exactly as often as by the outsider. -/
theorem C93_same_distribution (env : Env E) (t t' : Core E) (c : Int) (M : Nat) (hM0 : M ≠ 0)
    (hM : ∀ x b, (x, b) ∈ terms t → b.grp.order ∣ M) (hs : Solid t) (ht : Torsion t)
    (hshape : shape t' = shape t) (hsec : secrets t' = secrets t)
    (σ σ' : Store) (d d' : Dict Int) (X : Key → Int)
    (hd : d.Uniq (heapFor σ d t)) (hd' : d'.Uniq (heapFor σ' d' t')) (hc : Composable (heapFor σ d t) t)
    (hsee : SeesSame (heapFor σ d t) (heapFor σ' d' t') (secrets t))
    (hp : Informed (heapFor σ d t) d X (heapFor σ' d' t') d' true t t') :
    ∃ N, ∀ n, N ≤ n → ∀ (rest : Nat → Nat) (v : Val E × Transcript E),
      Nat.card {y : Fin n → Fin M // ∃ w, honestRun env t d c ⟨σ, tape y rest⟩ = .ok (v, w)} =
      Nat.card {y : Fin n → Fin M // ∃ w, pretendedRun env t' d' c ⟨σ', tape y rest⟩ = .ok (v, w)} := by
  obtain ⟨⟨N, hN⟩, _⟩ := C93_without_values env t t' c M hM0 hM hs ht hshape hsec σ σ' d d' X hd hd' hc hsee hp
  have key : ∀ (x : Except Err ((Val E × Transcript E) × World)) (v : Val E × Transcript E),
      (∃ w, x = .ok (v, w)) ↔ x.map Prod.fst = .ok v := by
    intro x v
    cases x with
    | error e => simp [Except.map]
    | ok r => obtain ⟨r, w⟩ := r; simp [Except.map]
  refine ⟨N, fun n hn rest v => ?_⟩
  obtain ⟨e, he⟩ := hN n hn
  refine Nat.card_congr (e.subtypeEquiv fun y => ?_)
  rw [key, key, he y rest]

/-- The second part of an outsider's statement: a value is missing, as for the prover. -/
private theorem informed_exPretend {d d' : Dict Int} {X : Key → Int}
    (hd : ∀ x ∈ (Ex.rep1).secretVars, given (heapFor Ex.σ0 d (.or false [.leaf Ex.rep1, .leaf Ex.rep3] : Core (ZMod 7))) d
      Ex.rep1 x = some (X ((heapFor Ex.σ0 d (.or false [.leaf Ex.rep1, .leaf Ex.rep3] : Core (ZMod 7))).key x)))
    (hh : Holds (heapFor Ex.σ0 d (.or false [.leaf Ex.rep1, .leaf Ex.rep3] : Core (ZMod 7))) (.leaf Ex.rep1) X)
    (hd' : ∀ x ∈ (Ex.rep1).secretVars, (given (heapFor Ex.σ0 d' (.or false [.leaf Ex.rep1, .leaf Ex.rep3] :
      Core (ZMod 7))) d' Ex.rep1 x).isSome)
    (hl : given (heapFor Ex.σ0 d (.or false [.leaf Ex.rep1, .leaf Ex.rep3] : Core (ZMod 7))) d Ex.rep3 2 = none)
    (hl' : given (heapFor Ex.σ0 d' (.or false [.leaf Ex.rep1, .leaf Ex.rep3] : Core (ZMod 7))) d' Ex.rep3 2 = none) :
    Informed (heapFor Ex.σ0 d (.or false [.leaf Ex.rep1, .leaf Ex.rep3] : Core (ZMod 7))) d X
      (heapFor Ex.σ0 d' (.or false [.leaf Ex.rep1, .leaf Ex.rep3] : Core (ZMod 7))) d' true
      (.or false [.leaf Ex.rep1, .leaf Ex.rep3] : Core (ZMod 7)) (.or false [.leaf Ex.rep1, .leaf Ex.rep3]) := by
  refine .any _ _ (fun i => i = 0) true (fun i t t' e e' => ?_) (fun i t t' e e' hu => ?_) ?_
  · obtain rfl := Option.some.inj (e.symm.trans e')
    exact Iff.rfl
  · obtain rfl := Option.some.inj (e.symm.trans e')
    match i, e with
    | 0, e =>
      obtain rfl := Option.some.inj e
      exact .rep _ _ hd hh hd'
    | 1, e =>
      obtain rfl := Option.some.inj e
      exact .lack _ _ 2 2 (by decide) hl (by decide) hl'
    | i + 2, e => simp at e
  · simp only [true_iff]
    exact ⟨0, _, rfl, rfl, by decide⟩

/-- The disjunction of `1 = x0·1 + x1·2` and `5 = x2·3` in `ℤ/7ℤ`, for somebody who knows `x0 = 2`, `x1 = 3` and an
outsider who has zeros for `x0` and `x1`. -/
theorem exPretend_pair : Ward.Pair 7 Ex.σ0 [(0, 2), (1, 3)]
    (fun κ => if κ = (heapFor Ex.σ0 [(0, 2), (1, 3)] (.or false [] : Core (ZMod 7))).key 0 then 2 else 3)
    (.or false [.leaf Ex.rep1, .leaf Ex.rep3] : Core (ZMod 7)) Ex.σ0 [(0, 0), (1, 0)]
    (.or false [.leaf Ex.rep1, .leaf Ex.rep3]) := by
  have ht : ∀ x b, (x, b) ∈ terms (.or false [.leaf Ex.rep1, .leaf Ex.rep3] : Core (ZMod 7)) →
      b = Ex.P 1 ∨ b = Ex.P 2 ∨ b = Ex.P 3 := by
    intro x b hx
    simp only [terms, termsL, Ex.rep1, Ex.rep3, List.zip_cons_cons, List.zip_nil_right, List.mem_cons,
      Prod.mk.injEq, List.not_mem_nil, or_false, List.append_nil, List.mem_append] at hx
    rcases hx with (⟨_, rfl⟩ | ⟨_, rfl⟩) | ⟨_, rfl⟩ <;> simp
  refine ⟨by decide, ?_, fun x b hx => ?_, fun x b hx => ?_, rfl, rfl, ?_, ?_, ?_, ?_,
    informed_exPretend (by decide) (.rep _ _ (by decide) (by decide)) (by decide) (by decide) (by decide)⟩
  · simp [Solid, SolidL, Ex.rep1, Ex.rep3, Ex.P, Ex.G]
  · rcases ht x b hx with rfl | rfl | rfl <;> decide
  · rcases ht x b hx with rfl | rfl | rfl <;> decide
  · simp only [Dict.Uniq, heapFor]; decide
  · simp only [Dict.Uniq, heapFor]; decide
  · refine .or _ _ (fun x b y c hx hy _ => ?_) fun t h => ?_
    · rcases ht x b hx with rfl | rfl | rfl <;> rcases ht y c hy with rfl | rfl | rfl <;> rfl
    · simp only [List.mem_cons, List.not_mem_nil, or_false] at h
      rcases h with rfl | rfl <;> exact .leaf _
  · refine ⟨⟨rfl, fun i j a b a' b' h1 h2 h3 h4 => ?_⟩, by decide⟩
    have e1 : a = a' := Option.some.inj (h1.symm.trans h3)
    have e2 : b = b' := Option.some.inj (h2.symm.trans h4)
    rw [e1, e2]

/-- The runs of somebody who knows `x0 = 2`, `x1 = 3` are made equally often by somebody who has zeros. -/
example (env : Env (ZMod 7)) (c : Int) :
    SameResults 7 (honestRun env (.or false [.leaf Ex.rep1, .leaf Ex.rep3]) [(0, 2), (1, 3)] c) Ex.σ0
      (pretendedRun env (.or false [.leaf Ex.rep1, .leaf Ex.rep3]) [(0, 0), (1, 0)] c) Ex.σ0 :=
  have ⟨h1, h2, h3, h4, h5, h6, h7, h8, h9, h10, h11⟩ := exPretend_pair
  (C93_without_values env _ _ c 7 h1 h4 h2 h3 h5 h6 _ _ _ _ _ h7 h8 h9 h10 h11).1

/-- The zeros do not make the clause true: the outsider could not answer as a prover. -/
example : ¬ Holds Ex.σ0 (.leaf Ex.rep1 : Core (ZMod 7)) (fun _ => 0) := by
  intro h
  cases h with
  | rep _ _ _ h => revert h; decide

end Zksk.Props
