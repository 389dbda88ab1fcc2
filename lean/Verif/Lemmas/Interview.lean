import Verif.SpecInterview
import Verif.Lemmas.Prim
import Verif.Lemmas.Monad

/-! # Talks with a verifier (C103) -/

set_option linter.unusedSectionVars false

namespace Zksk

open Spec

variable {E : Type} [AddCommGroup E] [DecidableEq E]

theorem draw_tape (k : Fin (2 ^ 128)) (τ : Store) (rest : Nat → Nat) :
    getRandomNum challengeLength ⟨τ, tape (fun _ : Fin 1 => k) rest⟩ = .ok ((k.val : Int), ⟨τ, rest⟩) := by
  have h : draw (2 ^ 128) ⟨τ, tape (fun _ : Fin 1 => k) rest⟩ = .ok ((k.val : Int), ⟨τ, rest⟩) := by
    unfold draw
    rw [if_neg (by norm_num)]
    have h1 : tape (fun _ : Fin 1 => k) rest 0 = k.val := by simp [tape]
    have h2 : (fun i => tape (fun _ : Fin 1 => k) rest (i + 1)) = rest := by funext i; simp [tape]
    simp only [h1, h2, Nat.mod_eq_of_lt k.2]
  exact h

theorem interview_iff {L : Type} [StmtOps E L] [ChallengeOps L] {env : Env E} {σ : Store} {t : Tree L} {v : Val E}
    {h : List UInt8} {com : Val E} {answer : Int → Val E} {k : Fin (2 ^ 128)} :
    Convinced env σ t v h com answer k ↔ ∃ t1, Tree.process σ (Tree.freshVerifier t) v = .ok t1 ∧
      (∃ x, checkStatement env σ t1 h = .ok x) ∧ Tree.gate t1 = .ok () ∧
      verifyResponse σ t1 com (k.val : Int) (answer k.val) = .ok true := by
  constructor
  · rintro ⟨τ, rest, w, hw⟩
    simp only [interview, sendChallenge, bind_assoc] at hw
    obtain ⟨t1, ht1, hw⟩ := pm_liftE_bind_iff.mp hw
    obtain ⟨x, hx, hw⟩ := pm_liftE_bind_iff.mp hw
    obtain ⟨_, hg, hw⟩ := pm_liftE_bind_iff.mp hw
    obtain ⟨c, w1, hc, hw⟩ := pm_bind.mp hw
    rw [draw_tape] at hc
    cases hc
    refine ⟨t1, ht1, ⟨x, hx⟩, hg, ?_⟩
    cases hv : verifyResponse σ t1 com (k.val : Int) (answer k.val) with
    | error e => rw [hv] at hw; simp [liftE] at hw
    | ok b => rw [hv] at hw; simp [liftE] at hw; rw [hw.1]
  · rintro ⟨t1, ht1, ⟨x, hx⟩, hg, hv⟩
    refine ⟨⟨fun _ => "", fun _ => none⟩, fun _ => 0, ⟨⟨fun _ => "", fun _ => none⟩, fun _ => 0⟩, ?_⟩
    simp only [interview, sendChallenge, bind_assoc]
    rw [ht1, pm_liftE_bind, hx, pm_liftE_bind, hg, pm_liftE_bind]
    refine pm_bind.mpr ⟨(k.val : Int), _, draw_tape k _ _, ?_⟩
    rw [hv]; rfl

/-- Numbers below `N` with one residue. -/
theorem card_residue {N q : Nat} (hq : 0 < q) (P : Fin N → Prop)
    (h : ∀ a b, P a → P b → (a.val : Int) % (q : Int) = (b.val : Int) % (q : Int)) :
    Nat.card {k // P k} ≤ (N + q - 1) / q := by
  have hlt : ∀ k : Fin N, k.val / q < (N + q - 1) / q := fun k => by
    have h1 : k.val / q + 1 = (k.val + q) / q := (Nat.add_div_right _ hq).symm
    have h2 : (k.val + q) / q ≤ (N + q - 1) / q := Nat.div_le_div_right (by have := k.2; omega)
    omega
  have := Nat.card_le_card_of_injective (fun k : {k // P k} => (⟨k.1.val / q, hlt k.1⟩ : Fin ((N + q - 1) / q))) (by
    rintro ⟨a, ha⟩ ⟨b, hb⟩ hab
    simp only [Fin.mk.injEq] at hab
    have h1 : a.val % q = b.val % q := by exact_mod_cast h a b ha hb
    have h2 := Nat.div_add_mod a.val q
    rw [hab, h1, Nat.div_add_mod] at h2
    exact Subtype.ext (Fin.ext h2.symm))
  simpa using this

theorem process_plain {σ : Store} {t t1 : Core E} {v : Val E} (h : Tree.process σ (Tree.freshVerifier t) v = .ok t1) : t1 = t := by
  rw [fresh_core] at h
  rcases process_core σ σ t t v rfl with ⟨e, h1, _⟩ | ⟨h1, _⟩
  · rw [h1] at h; cases h
  · rw [h1] at h; cases h; rfl

/-- As `verifyResponse_stmt`, without the shortcut for absent precommitments. -/
theorem verifyResponse_process {σ : Store} {t t1 : Stmt E} {v com r : Val E} {c : Int}
    (h : Tree.process σ (Tree.freshVerifier t) v = .ok t1) (h1 : verifyResponse σ t1 com c r = .ok true) :
    ∃ S k, Digested σ t v S k ∧ ∀ com c r, verifyResponse σ t1 com c r = verifyResponse σ k com c r := by
  unfold verifyResponse preVerification at h1
  obtain ⟨_, h2, _⟩ := bind_ok_iff.mp h1
  obtain ⟨_, hval, h2⟩ := bind_ok_iff.mp h2
  obtain ⟨⟨b, d⟩, hc, h2⟩ := bind_ok_iff.mp h2
  cases b with
  | false => simp at h2
  | true =>
    obtain ⟨S, k, hd, hview⟩ := digested_of_process σ t v t1 h hval (hasVer_of_consistency σ t1 _ _ _ hc)
    refine ⟨S, k, hd, fun com c r => ?_⟩
    unfold verifyResponse preVerification
    rw [hval, validate_core, hview.consistency, hview.recompute]

end Zksk
