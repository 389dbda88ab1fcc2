import Verif.Lemmas.WrongTree
import Verif.Lemmas.Fork
import Verif.Props.Complete

/-! # C87: composed statements proved with values that are not a witness -/

set_option linter.unusedSectionVars false

namespace Zksk.Props

open Spec

variable {E : Type} [AddCommGroup E] [DecidableEq E]

/-- **C87** Whatever values a prover of a composed statement uses (one per secret), it commits and
answers, and the answer to a challenge is accepted exactly if for every representation that is really
proved the challenge that it answers annihilates what its values miss: outside of disjunctions the
challenge itself, in the proved clause of a disjunction its share. -/
theorem C87_accepted_iff (t t1 : Core E) (p p1 p2 : CoreProver E) (d : Dict Int) (w w1 w2 w3 : World)
    (v com : Val E) (hw : WellFormed t) (ht : Torsion t)
    (h : PTree.getProver t d w = .ok ((some p, t1), w1)) (X : Key → Int)
    (hX : ∀ q ∈ active p, (∀ x ∈ q.stmt.secretVars,
      Dict.get? w1.store q.secretValues x = some (X (w1.store.key x))) ∧
      ∀ b ∈ q.stmt.bases, b.grp = q.stmt.lhs.grp)
    (hpre : PTree.precommit p w1 = .ok ((v, p1), w2))
    (hcom : PTree.internalCommit p1 none w2 = .ok ((com, p2), w3)) (c : Int) :
    ∃ r w' b, PTree.computeResponse p2 c w3 = .ok (r, w') ∧ verifyResponse w1.store t com c r = .ok b ∧
      (b = true ↔ ∀ a ∈ queried p c, a.2 • miss w1.store a.1.stmt X = 0) := by
  obtain ⟨e1, _, e2⟩ := wrong_run hw ht h X hX hpre hcom
  obtain ⟨r, w', com', i1, _, i2, i3, i4⟩ := e2 c w3 e1
  refine ⟨r, w', decide (com = com'), i1, ?_, ?_⟩
  · unfold verifyResponse
    rw [i2, bind_ok, i3, bind_ok]
  · rw [decide_eq_true_iff, ← i4, eq_comm]

/-- **C87** A conjunction (also nested) of representations in groups of prime order, proved with values
that make at least one of them false: for every challenge that is not zero modulo the orders, the
answer is rejected, although the prover raises no exception. -/
theorem C87_conjunction_rejected (t t1 : Core E) (p p1 p2 : CoreProver E) (d : Dict Int) (w w1 w2 w3 : World)
    (v com : Val E) (hw : WellFormed t) (ht : Torsion t) (hf : OrFree t)
    (hd : d.Uniq (heapFor w.store d t)) (X : Key → Int)
    (hval : ∀ s ∈ reps t, (∀ x ∈ s.secretVars,
      given (heapFor w.store d t) d s x = some (X ((heapFor w.store d t).key x))) ∧
      ∀ b ∈ s.bases, b.grp = s.lhs.grp)
    (hprime : ∀ s ∈ reps t, s.lhs.grp.order.Prime ∧ (s.lhs.grp.order : Int) • s.lhs.val = 0)
    (hwrong : ∃ s ∈ reps t, s.lhs.val ≠
      (List.zipWith (fun x b => X ((heapFor w.store d t).key x) • b.val) s.secretVars s.bases).sum)
    (h : PTree.getProver t d w = .ok ((some p, t1), w1))
    (hpre : PTree.precommit p w1 = .ok ((v, p1), w2))
    (hcom : PTree.internalCommit p1 none w2 = .ok ((com, p2), w3)) (c : Int)
    (hc : ∀ s ∈ reps t, c % (s.lhs.grp.order : Int) ≠ 0) :
    ∃ r w', PTree.computeResponse p2 c w3 = .ok (r, w') ∧ verifyResponse w1.store t com c r = .ok false := by
  obtain ⟨e1, e2, e3⟩ := free_data hf hd X hval h
  obtain ⟨r, w', b, i1, i2, i3⟩ := C87_accepted_iff t t1 p p1 p2 d w w1 w2 w3 v com hw ht h X e2 hpre hcom c
  refine ⟨r, w', i1, ?_⟩
  rw [i2]
  cases b with
  | false => rfl
  | true =>
    obtain ⟨s, hs, hne⟩ := hwrong
    have h0 := (e3 c).mp (i3.mp rfl) s hs
    have hm : miss w1.store s X = 0 := zero_of_prime (hprime s hs).1 (hc s hs)
      (miss_torsion (fun x b hx => ht x b (reps_terms t hs _ hx)) (hval s hs).2 (hprime s hs).2) h0
    rw [miss, sub_eq_zero, e1] at hm
    exact absurd hm hne

/-- **C87** The same for non-interactive proofs: if `prove()` with arbitrary values (one per secret)
returns a proof and `verify()` accepts it, then either the challenges that the representations really
proved answer annihilate what their values miss, or two different lists of commitments have the same
Fiat-Shamir challenge. -/
theorem C87_nizk (env : Env E) (t t2 : Core E) (d : Dict Int) (w w2 : World) (msg : String) (nizk : NIZK E)
    (hw : WellFormed t) (ht : Torsion t)
    (h : prove (DLRepProver E) env t d msg w = .ok ((nizk, t2), w2)) :
    ∃ (p : CoreProver E) (t1 : Core E) (w1 : World), PTree.getProver t d w = .ok ((some p, t1), w1) ∧
      ∀ X : Key → Int, (∀ q ∈ active p, (∀ x ∈ q.stmt.secretVars,
          Dict.get? w1.store q.secretValues x = some (X (w1.store.key x))) ∧
          ∀ b ∈ q.stmt.bases, b.grp = q.stmt.lhs.grp) →
        verify env w2.store t nizk msg = .ok true →
        (∀ a ∈ queried p nizk.challenge, a.2 • miss w1.store a.1.stmt X = 0) ∨
        ∃ id com com', com ≠ com' ∧
          env.fiatShamir id nizk.precommitment com msg = .ok nizk.challenge ∧
          env.fiatShamir id nizk.precommitment com' msg = .ok nizk.challenge := by
  unfold prove at h
  obtain ⟨⟨p?, t1⟩, w1, h1, h⟩ := pm_bind.mp h
  cases p? with
  | none => exact (raise_ne.mp h).elim
  | some p =>
  simp only at h
  obtain ⟨⟨n, p'⟩, w3, h2, h⟩ := pm_bind.mp h
  rw [pm_pure_iff, Prod.mk.injEq, Prod.mk.injEq] at h
  obtain ⟨⟨rfl, rfl⟩, rfl⟩ := h
  refine ⟨p, t1, w1, h1, fun X hX hv => ?_⟩
  unfold PTree.getNizkProof at h2
  obtain ⟨⟨v, p1⟩, w4, hpre, h2⟩ := pm_bind.mp h2
  obtain ⟨⟨com, p2⟩, w5, hcom, h2⟩ := pm_bind.mp h2
  obtain ⟨e1, e2, e3⟩ := wrong_run hw ht h1 X hX hpre hcom
  simp only at h2
  rw [pm_getStore_bind, pm_liftE_bind_iff] at h2
  obtain ⟨id, hid, h2⟩ := h2
  rw [pm_liftE_bind_iff] at h2
  obtain ⟨c, hc, h2⟩ := h2
  obtain ⟨r, w6, hr, h2⟩ := pm_bind.mp h2
  rw [pm_pure_iff, Prod.mk.injEq, Prod.mk.injEq] at h2
  obtain ⟨⟨hn, rfl⟩, rfl⟩ := h2
  subst hn
  obtain ⟨r', w', com', i1, i2, _, i3, i4⟩ := e3 c w5 e1
  rw [hr] at i1
  injection i1 with i1
  rw [Prod.mk.injEq] at i1
  obtain ⟨rfl, rfl⟩ := i1
  simp only at hv ⊢
  unfold verify at hv
  simp only at hv
  obtain ⟨tv, g1, hv1⟩ := bind_ok_iff.mp hv
  obtain ⟨id', g2, hv2⟩ := bind_ok_iff.mp hv1
  obtain ⟨_, g3, hv3⟩ := bind_ok_iff.mp hv2
  obtain ⟨cv, g4, hv4⟩ := bind_ok_iff.mp hv3
  obtain ⟨c', g5, hv5⟩ := bind_ok_iff.mp hv4
  clear hv hv1 hv2 hv3 hv4
  have htv := digest_core_same g1
  subst htv
  rw [i3] at g4
  injection g4 with g4
  subst g4
  simp only [Except.ok.injEq, decide_eq_true_eq] at hv5
  subst hv5
  by_cases heq : com' = com
  · exact .inl (i4.mp heq)
  · refine .inr ⟨id, com, com', fun h => heq h.symm, hc, ?_⟩
    have hsh := shape_blank (PTree.stmtOf p2) _ e2
    have : id' = id := by
      unfold checkStatement at g2
      obtain ⟨id1, k1, k2⟩ := bind_ok_iff.mp g2
      split at k2
      · cases k2
      · injection k2 with k2
        subst k2
        rw [i2, proofId_iff (skel_core _) (secretVars_core _)] at k1
        have k1' : IsId (coreSkel (PTree.stmtOf p2)) ((coreVars (PTree.stmtOf p2)).map w5.store.name) id1 := by
          rw [e1, show coreSkel (PTree.stmtOf p2) = _ from hsh.1, show coreVars (PTree.stmtOf p2) = _ from hsh.2]
          exact k1
        rw [← proofId_iff (skel_core _) (secretVars_core _), hid] at k1'
        exact (Except.ok.inj k1').symm
    rw [← this]; exact g5

/-- **C87** For a conjunction: if `prove()` with values that make at least one representation false
returns a proof which `verify()` accepts, the challenge is zero modulo the order of one of the groups, or
two different lists of commitments have the same Fiat-Shamir challenge. -/
theorem C87_conjunction_nizk (env : Env E) (t t2 : Core E) (d : Dict Int) (w w2 : World) (msg : String)
    (nizk : NIZK E) (hw : WellFormed t) (ht : Torsion t) (hf : OrFree t)
    (hd : d.Uniq (heapFor w.store d t)) (X : Key → Int)
    (hval : ∀ s ∈ reps t, (∀ x ∈ s.secretVars,
      given (heapFor w.store d t) d s x = some (X ((heapFor w.store d t).key x))) ∧
      ∀ b ∈ s.bases, b.grp = s.lhs.grp)
    (hprime : ∀ s ∈ reps t, s.lhs.grp.order.Prime ∧ (s.lhs.grp.order : Int) • s.lhs.val = 0)
    (hwrong : ∃ s ∈ reps t, s.lhs.val ≠
      (List.zipWith (fun x b => X ((heapFor w.store d t).key x) • b.val) s.secretVars s.bases).sum)
    (h : prove (DLRepProver E) env t d msg w = .ok ((nizk, t2), w2))
    (hv : verify env w2.store t nizk msg = .ok true) :
    (∃ s ∈ reps t, nizk.challenge % (s.lhs.grp.order : Int) = 0) ∨
      ∃ id com com', com ≠ com' ∧
        env.fiatShamir id nizk.precommitment com msg = .ok nizk.challenge ∧
        env.fiatShamir id nizk.precommitment com' msg = .ok nizk.challenge := by
  obtain ⟨p, t1, w1, h1, h2⟩ := C87_nizk env t t2 d w w2 msg nizk hw ht h
  obtain ⟨e1, e2, e3⟩ := free_data hf hd X hval h1
  rcases h2 X e2 hv with h3 | h3
  · left
    by_contra hno
    obtain ⟨s, hs, hne⟩ := hwrong
    have hm : miss w1.store s X = 0 := zero_of_prime (hprime s hs).1 (fun h0 => hno ⟨s, hs, h0⟩)
      (miss_torsion (fun x b hx => ht x b (reps_terms t hs _ hx)) (hval s hs).2 (hprime s hs).2)
      ((e3 _).mp h3 s hs)
    rw [miss, sub_eq_zero, e1] at hm
    exact absurd hm hne
  · exact .inr h3

/-- The conjunction `1 = x0·1 + x1·2 & 6 = x0·3` over ℤ/7ℤ with the value 4 for `x1`, which is wrong
(3 is right), and the right value for `x0`. -/
def wrongConj : Core (ZMod 7) := .and false [.leaf Ex.rep1, .leaf Ex.rep2]

/-- The values of the secrets in the example. -/
def exWrong : Key → Int := fun κ => if κ.1 = "x0" then 2 else 4

theorem wrongConj_val : ∀ s ∈ reps wrongConj, (∀ x ∈ s.secretVars,
    given (heapFor Ex.σ [(0, 2), (1, 4)] wrongConj) [(0, 2), (1, 4)] s x =
      some (exWrong ((heapFor Ex.σ [(0, 2), (1, 4)] wrongConj).key x))) ∧ ∀ b ∈ s.bases, b.grp = s.lhs.grp := by
  intro s hs
  simp only [wrongConj, reps, repsL, List.cons_append, List.nil_append, List.mem_cons,
    List.not_mem_nil, or_false] at hs
  rcases hs with rfl | rfl <;> decide

theorem wrongConj_wrong : Ex.rep1.lhs.val ≠ (List.zipWith (fun x b =>
    exWrong ((heapFor Ex.σ [(0, 2), (1, 4)] wrongConj).key x) • b.val) Ex.rep1.secretVars Ex.rep1.bases).sum := by
  decide

/-- All hypotheses of `C87_conjunction_rejected` hold for it: challenge 3 is rejected for all random
draws. -/
example (rng : Nat → Nat) : ∃ (p p2 : CoreProver (ZMod 7)) (t1 : Core (ZMod 7)) (w1 w3 : World) (com r : Val (ZMod 7)) (w' : World),
    PTree.getProver wrongConj [(0, 2), (1, 4)] ⟨Ex.σ, rng⟩ = .ok ((some p, t1), w1) ∧
    PTree.internalCommit p none w1 = .ok ((com, p2), w3) ∧
    PTree.computeResponse p2 3 w3 = .ok (r, w') ∧ verifyResponse w1.store wrongConj com 3 r = .ok false := by
  obtain ⟨p, p2, t1, w1, w3, com, v, h1, h2, h3⟩ : ∃ (p p2 : CoreProver (ZMod 7)) (t1 : Core (ZMod 7))
      (w1 w3 : World) (com v : Val (ZMod 7)),
      PTree.getProver wrongConj [(0, 2), (1, 4)] ⟨Ex.σ, rng⟩ = .ok ((some p, t1), w1) ∧
      PTree.precommit p w1 = .ok ((v, p), w1) ∧
      PTree.internalCommit p none w1 = .ok ((com, p2), w3) := ⟨_, _, _, _, _, _, _, rfl, rfl, rfl⟩
  obtain ⟨r, w', h4, h5⟩ := C87_conjunction_rejected wrongConj t1 p p p2 [(0, 2), (1, 4)] _ w1 w1 w3 v com
    (by simp [wrongConj, WellFormed, WellFormedL, Ex.rep1, Ex.rep2]) (by
      intro x b hx
      simp only [wrongConj, terms, termsL, Ex.rep1, Ex.rep2, List.zip_cons_cons, List.zip_nil_right,
        List.cons_append, List.nil_append, List.append_nil, List.mem_cons, Prod.mk.injEq,
        List.not_mem_nil, or_false] at hx
      rcases hx with ⟨_, rfl⟩ | ⟨_, rfl⟩ | ⟨_, rfl⟩ <;> decide)
    (.all _ _ (by
      intro t ht
      simp only [List.mem_cons, List.not_mem_nil, or_false] at ht
      rcases ht with rfl | rfl <;> exact .rep _))
    (by simp only [Dict.Uniq]; decide) exWrong wrongConj_val
    (by
      intro s hs
      simp only [wrongConj, reps, repsL, List.cons_append, List.nil_append, List.mem_cons,
        List.not_mem_nil, or_false] at hs
      rcases hs with rfl | rfl <;> exact ⟨(by decide : Nat.Prime 7), by decide⟩)
    ⟨Ex.rep1, by simp [wrongConj, reps, repsL], wrongConj_wrong⟩ h1 h2 h3 3
    (by
      intro s hs
      simp only [wrongConj, reps, repsL, List.cons_append, List.nil_append, List.mem_cons,
        List.not_mem_nil, or_false] at hs
      rcases hs with rfl | rfl <;> decide)
  exact ⟨p, p2, t1, w1, w3, com, r, w', h1, h3, h4, h5⟩

/-- `prove()` returns a proof for these values, and there are hash functions for which it is accepted: one
that always returns 7, which is zero modulo the order. -/
example : ∃ nizk t2 w2, prove (DLRepProver (ZMod 7)) (Ex.env 7) wrongConj [(0, 2), (1, 4)] "m"
    ⟨Ex.σ, fun i => i⟩ = .ok ((nizk, t2), w2) ∧
    verify (Ex.env 7) w2.store wrongConj nizk "m" = .ok true := ⟨_, _, _, rfl, rfl⟩

/-- In a disjunction the clause really proved answers its share: with a wrong value for `x2` (1 instead of
4) in `(5 = x2·3) | (5 = x2·3)` and a simulated clause with challenge 2, the answer to the challenge 2 is
accepted, since the share is zero, and the answer to 1 is not. -/
example : (match (PTree.getProver (.or false [.leaf Ex.rep3, .leaf Ex.rep3]) [(2, 1)] ⟨Ex.σ, fun _ => 2⟩ :
      Except Err ((Option (CoreProver (ZMod 7)) × Core (ZMod 7)) × World)) with
    | .ok ((some p, _), w1) =>
      match PTree.internalCommit p none w1 with
      | .ok ((com, p2), w3) =>
        match PTree.computeResponse p2 2 w3, PTree.computeResponse p2 1 w3 with
        | .ok (r, _), .ok (r', _) =>
          decide (verifyResponse w1.store (.or false [.leaf Ex.rep3, .leaf Ex.rep3]) com 2 r =
            (.ok true : Except Err Bool)) &&
          decide (verifyResponse w1.store (.or false [.leaf Ex.rep3, .leaf Ex.rep3]) com 1 r' =
            (.ok false : Except Err Bool))
        | _, _ => false
      | _ => false
    | _ => false) = true := by decide +kernel

end Zksk.Props
