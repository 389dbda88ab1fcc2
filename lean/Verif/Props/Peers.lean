import Verif.Lemmas.PeersRun
import Verif.Examples
import Mathlib.SetTheory.Cardinal.Finite

/-! # C77: proofs depend at most on which clauses the prover can prove, not on the values -/

set_option linter.unusedSectionVars false

namespace Zksk.Props

open Spec

variable {E : Type} [AddCommGroup E] [DecidableEq E]

/-- **C77** Interactive runs, for every challenge: two people with statement objects `t`, `t'` that state the same
about the same secrets, and who are in the same position, run the protocol without an exception, and the transcripts
have the same distribution. -/
theorem C77_runs (env : Env E) (t t' : Core E) (c : Int) (M : Nat) (hM0 : M ≠ 0)
    (hM : ∀ x b, (x, b) ∈ terms t → b.grp.order ∣ M) (hs : Solid t) (ht : Torsion t)
    (hshape : shape t' = shape t) (hsec : secrets t' = secrets t)
    (σ σ' : Store) (d d' : Dict Int) (X X' : Key → Int)
    (hd : d.Uniq (heapFor σ d t)) (hd' : d'.Uniq (heapFor σ' d' t'))
    (hc : Composable (heapFor σ d t) t) (hc' : Composable (heapFor σ' d' t') t')
    (hsee : SeesSame (heapFor σ d t) (heapFor σ' d' t') (secrets t))
    (hp : Peers (heapFor σ d t) d X (heapFor σ' d' t') d' X' true t t') :
    SameResults M (honestRun env t d c) σ (honestRun env t' d' c) σ' ∧ Succeeds M (honestRun env t d c) σ :=
  Peer.runs_same ⟨hM0, hs, ht, hM, hshape, hsec, hd, hd', hc, hc', hsee, hp⟩ env c

/-- **C77** The same for non-interactive proofs. -/
theorem C77_proofs (env : Env E) (t t' : Core E) (message : String) (M : Nat) (hM0 : M ≠ 0)
    (hM : ∀ x b, (x, b) ∈ terms t → b.grp.order ∣ M) (hs : Solid t) (ht : Torsion t)
    (hshape : shape t' = shape t) (hsec : secrets t' = secrets t)
    (σ σ' : Store) (d d' : Dict Int) (X X' : Key → Int)
    (hd : d.Uniq (heapFor σ d t)) (hd' : d'.Uniq (heapFor σ' d' t'))
    (hc : Composable (heapFor σ d t) t) (hc' : Composable (heapFor σ' d' t') t')
    (hsee : SeesSame (heapFor σ d t) (heapFor σ' d' t') (secrets t))
    (hp : Peers (heapFor σ d t) d X (heapFor σ' d' t') d' X' true t t') :
    SameResults M (proofOf env t d message) σ (proofOf env t' d' message) σ' :=
  Peer.proofs_same ⟨hM0, hs, ht, hM, hshape, hsec, hd, hd', hc, hc', hsee, hp⟩ env message

/-- **C77** In numbers: for every long enough block of random numbers below `M`, each proof is made by one of the two
exactly as often as by the other. -/
theorem C77_same_distribution (env : Env E) (t t' : Core E) (message : String) (M : Nat) (hM0 : M ≠ 0)
    (hM : ∀ x b, (x, b) ∈ terms t → b.grp.order ∣ M) (hs : Solid t) (ht : Torsion t)
    (hshape : shape t' = shape t) (hsec : secrets t' = secrets t)
    (σ σ' : Store) (d d' : Dict Int) (X X' : Key → Int)
    (hd : d.Uniq (heapFor σ d t)) (hd' : d'.Uniq (heapFor σ' d' t'))
    (hc : Composable (heapFor σ d t) t) (hc' : Composable (heapFor σ' d' t') t')
    (hsee : SeesSame (heapFor σ d t) (heapFor σ' d' t') (secrets t))
    (hp : Peers (heapFor σ d t) d X (heapFor σ' d' t') d' X' true t t') :
    ∃ N, ∀ n, N ≤ n → ∀ (rest : Nat → Nat) (π : NIZK E),
      Nat.card {y : Fin n → Fin M // ∃ u w, prove (DLRepProver E) env t d message ⟨σ, tape y rest⟩ = .ok ((π, u), w)} =
      Nat.card {y : Fin n → Fin M //
        ∃ u w, prove (DLRepProver E) env t' d' message ⟨σ', tape y rest⟩ = .ok ((π, u), w)} := by
  obtain ⟨N, hN⟩ := C77_proofs env t t' message M hM0 hM hs ht hshape hsec σ σ' d d' X X' hd hd' hc hc' hsee hp
  have key : ∀ (v : Core E) (e : Dict Int) (w : World) (π : NIZK E),
      (∃ u w', prove (DLRepProver E) env v e message w = .ok ((π, u), w')) ↔
        (proofOf env v e message w).map Prod.fst = .ok π := by
    intro v e w π
    have hb : proofOf env v e message w = (prove (DLRepProver E) env v e message w).map fun r => (r.1.1, r.2) := by
      unfold proofOf
      show (prove (DLRepProver E) env v e message w >>= _) = _
      cases prove (DLRepProver E) env v e message w <;> rfl
    rw [hb]
    cases prove (DLRepProver E) env v e message w with
    | error e => simp [Except.map]
    | ok r =>
      obtain ⟨⟨π', u⟩, w'⟩ := r
      simp [Except.map]
  refine ⟨N, fun n hn rest π => ?_⟩
  obtain ⟨e, he⟩ := hN n hn
  refine Nat.card_congr (e.subtypeEquiv fun y => ?_)
  rw [key, key, he y rest]

mutual
/-- Two people for whom all clauses that are not marked are true are in the same position. -/
theorem peers_of_satisfied {σ σ' : Store} {d d' : Dict Int} {X X' : Key → Int} :
    ∀ t : Core E, Satisfied σ d X t → Satisfied σ' d' X' t → Peers σ d X σ' d' X' true t t
  | .leaf s, .rep _ hv h, .rep _ hv' h' => .rep s s hv h hv' h'
  | .and _ subs, .all _ h, .all _ h' => .all _ _ fun i t t' e e' => by
      obtain rfl := Option.some.inj (e.symm.trans e')
      exact peersL_of_satisfied subs t (List.mem_of_getElem? e) (h t (List.mem_of_getElem? e)) (h' t (List.mem_of_getElem? e))
  | .or _ subs, .any _ hex h, .any _ _ h' => .any _ _ (fun _ => true) true
      (fun i t t' e e' => by
        obtain rfl := Option.some.inj (e.symm.trans e')
        exact Iff.rfl)
      (fun i t t' e e' hu => by
        obtain rfl := Option.some.inj (e.symm.trans e')
        exact peersL_of_satisfied subs t (List.mem_of_getElem? e) (h t (List.mem_of_getElem? e) hu)
          (h' t (List.mem_of_getElem? e) hu))
      (by
        simp only [and_true, true_iff]
        obtain ⟨t, ht, hu⟩ := hex
        obtain ⟨i, hi⟩ := List.getElem?_of_mem ht
        exact ⟨i, t, hi, hu⟩)
/-- The same for each of a list. -/
theorem peersL_of_satisfied {σ σ' : Store} {d d' : Dict Int} {X X' : Key → Int} :
    ∀ (ts : List (Core E)) (t : Core E), t ∈ ts → Satisfied σ d X t → Satisfied σ' d' X' t →
      Peers σ d X σ' d' X' true t t
  | [], _, h => by cases h
  | u :: us, t, h => by
    intro h1 h2
    rcases List.mem_cons.mp h with e | h
    · exact e ▸ peers_of_satisfied u (e ▸ h1) (e ▸ h2)
    · exact peersL_of_satisfied us t h h1 h2
end

/-- **C77** One statement object, with all clauses true that are not marked as simulated, for both provers: the proofs
have the same distribution. -/
theorem C77_true_clauses (env : Env E) (t : Core E) (message : String) (M : Nat) (hM0 : M ≠ 0)
    (hM : ∀ x b, (x, b) ∈ terms t → b.grp.order ∣ M) (hs : Solid t) (ht : Torsion t)
    (σ σ' : Store) (d d' : Dict Int) (X X' : Key → Int)
    (hd : d.Uniq (heapFor σ d t)) (hd' : d'.Uniq (heapFor σ' d' t))
    (hc : Composable (heapFor σ d t) t) (hc' : Composable (heapFor σ' d' t) t)
    (hsee : SeesSame (heapFor σ d t) (heapFor σ' d' t) (secrets t))
    (hX : Satisfied (heapFor σ d t) d X t) (hX' : Satisfied (heapFor σ' d' t) d' X' t) :
    SameResults M (proofOf env t d message) σ (proofOf env t d' message) σ' :=
  C77_proofs env t t message M hM0 hM hs ht rfl rfl σ σ' d d' X X' hd hd' hc hc' hsee
    (peers_of_satisfied t hX hX')

/-- A disjunction of `1 = x0·1 + x1·2` and `5 = x2·3` in `ℤ/7ℤ`. -/
private def exOr : Core (ZMod 7) := .or false [.leaf Ex.rep1, .leaf Ex.rep3]

/-- Somebody who knows `x0 = 2`, `x1 = 3` and somebody who knows `x0 = 3`, `x1 = 6`, both without `x2`, make the same
proofs of the disjunction equally often, whatever the hash function is. -/
example (env : Env (ZMod 7)) (m : String) :
    SameResults 7 (proofOf env exOr [(0, 2), (1, 3)] m) Ex.σ0 (proofOf env exOr [(0, 3), (1, 6)] m) Ex.σ0 := by
  have ht : ∀ x b, (x, b) ∈ terms exOr → b = Ex.P 1 ∨ b = Ex.P 2 ∨ b = Ex.P 3 := by
    intro x b hx
    simp only [terms, termsL, exOr, Ex.rep1, Ex.rep3, List.zip_cons_cons, List.zip_nil_right, List.mem_cons,
      Prod.mk.injEq, List.not_mem_nil, or_false, List.append_nil, List.mem_append] at hx
    rcases hx with (⟨_, rfl⟩ | ⟨_, rfl⟩) | ⟨_, rfl⟩ <;> simp
  have hcomp : ∀ d : Dict Int, Composable (heapFor Ex.σ0 d exOr) exOr := by
    intro d
    refine .or _ _ (fun x b y c hx hy _ => ?_) fun t h => ?_
    · rcases ht x b hx with rfl | rfl | rfl <;> rcases ht y c hy with rfl | rfl | rfl <;> rfl
    · simp only [List.mem_cons, List.not_mem_nil, or_false] at h
      rcases h with rfl | rfl <;> exact .leaf _
  refine C77_proofs env exOr exOr m 7 (by decide) (fun x b hx => ?_) ?_ (fun x b hx => ?_) rfl rfl _ _ _ _
    (fun κ => if κ = (heapFor Ex.σ0 [(0, 2), (1, 3)] exOr).key 0 then 2 else 3)
    (fun κ => if κ = (heapFor Ex.σ0 [(0, 3), (1, 6)] exOr).key 0 then 3 else 6) ?_ ?_ (hcomp _) (hcomp _) ?_ ?_
  · rcases ht x b hx with rfl | rfl | rfl <;> decide
  · simp [exOr, Solid, SolidL, Ex.rep1, Ex.rep3, Ex.P, Ex.G]
  · rcases ht x b hx with rfl | rfl | rfl <;> decide
  · simp only [Dict.Uniq, heapFor, exOr]; decide
  · simp only [Dict.Uniq, heapFor, exOr]; decide
  · refine ⟨⟨rfl, fun i j a b a' b' h1 h2 h3 h4 => ?_⟩, by decide⟩
    have e1 : a = a' := Option.some.inj (h1.symm.trans h3)
    have e2 : b = b' := Option.some.inj (h2.symm.trans h4)
    rw [e1, e2]
  · refine .any _ _ (fun i => i = 0) true (fun i t t' e e' => ?_) (fun i t t' e e' hu => ?_) ?_
    · obtain rfl := Option.some.inj (e.symm.trans e')
      exact Iff.rfl
    · obtain rfl := Option.some.inj (e.symm.trans e')
      match i, e with
      | 0, e =>
        obtain rfl := Option.some.inj e
        exact .rep _ _ (by decide) (.rep _ _ (by decide) (by decide)) (by decide) (.rep _ _ (by decide) (by decide))
      | 1, e =>
        obtain rfl := Option.some.inj e
        exact .lack _ _ 2 2 (by decide) (by decide) (by decide) (by decide)
      | i + 2, e => simp at e
    · simp only [true_iff]
      exact ⟨0, _, rfl, rfl, by decide⟩

end Zksk.Props
