import Verif.Lemmas.NotEqual
import Verif.Props.Sound

/-! # C35: soundness of the inequality of discrete logarithms -/

set_option linter.unusedSectionVars false

namespace Zksk.Props

open Spec

variable {E : Type} [AddCommGroup E] [DecidableEq E]

/-- **C35** Let all four points be from one group of prime order, `h0` not the identity.  Whatever the
precommitment: if it passes `validate()` and the statement built from it by `construct_stmt()` is true for the
values `X`, then there is an `x` with `H0 = x h0` and `H1 ≠ x h1`; with `bind`, the value of the shared secret
is such an `x`. -/
theorem C35_witness (s : NotEqual E) (σ : Store) (v : Val E) (k : Core E) (X : Key → Int)
    (hq : s.g.grp.order.Prime) (hgrp : s.h.grp = s.g.grp)
    (htor : ∀ p ∈ [s.g, s.lhs0, s.h, s.lhs1], (s.g.grp.order : Int) • p.val = 0) (hg : s.g.val ≠ 0)
    (hc : s.construct σ v = .ok k) (hv : s.validate v = .ok ()) (h : Holds σ k X) :
    (∃ x : Int, s.lhs0.val = x • s.g.val ∧ s.lhs1.val ≠ x • s.h.val) ∧
    (s.bind = true → s.lhs0.val = X (σ.key s.x) • s.g.val ∧ s.lhs1.val ≠ X (σ.key s.x) • s.h.val) := by
  obtain ⟨c, kv, kv', rfl, g0, g1, rest, rfl, hb, _⟩ := NotEqual.construct_inv hc
  cases h with
  | all _ _ _ h =>
    have h1 := h _ (List.mem_cons_self ..)
    have h2 := h (.leaf ⟨c, [s.h, s.lhs1], [s.alpha, s.beta], kv', false⟩) (by simp)
    cases h1 with
    | rep _ _ _ h1 =>
    cases h2 with
    | rep _ _ hgr h2 =>
    simp only [Grp.inf, List.zipWith_cons_cons, List.zipWith_nil_right, List.sum_cons, List.sum_nil,
      add_zero] at h1 h2
    have hcg : c.grp = s.g.grp := by rw [← hgrp]; exact (hgr s.h (by simp)).symm
    have hv0 : c.val ≠ 0 := by
      intro h0
      unfold NotEqual.validate at hv
      rw [if_pos] at hv
      · cases hv
      · cases c; simp only at h0 hcg; subst h0; subst hcg; rfl
    obtain ⟨x, hx, hx1, key⟩ := NotEqual.algebra hq (htor _ (by simp)) (htor _ (by simp)) (htor _ (by simp))
      (htor _ (by simp)) hg h1 h2 hv0
    refine ⟨⟨x, hx, hx1⟩, fun hbt => ?_⟩
    obtain ⟨kv'', rfl⟩ := hb hbt
    have h3 := h (.leaf ⟨s.lhs0, [s.g], [s.x], kv'', false⟩) (by simp)
    cases h3 with
    | rep _ _ _ h3 =>
    simp only [List.zipWith_cons_cons, List.zipWith_nil_right, List.sum_cons, List.sum_nil, add_zero] at h3
    exact ⟨h3, key _ h3⟩

/-- `2 = x·1` and `5 ≠ x·3` in `ℤ/7ℤ`, with `x = 2`, and the internal secrets 3 and 4. -/
def exNe (bind : Bool) : NotEqual (ZMod 7) := ⟨Ex.P 2, Ex.P 1, Ex.P 5, Ex.P 3, Ex.P 1, 2, 3, 4, bind⟩

/-- Secrets with pairwise different names; the values of 2, 3, 4 are 2, 2 and 6 (blinder 1). -/
def exNeStore : Store where
  name s := String.ofList (List.replicate s 'x')
  value s := if s = 4 then some 6 else some 2

/-- The values in the heap. -/
def exHeapVal : Key → Int := fun κ => κ.2.getD 0

/-- The hypotheses are met by `exNe` with precommitment `1`. -/
example (bind : Bool) : ∃ k, (exNe bind).construct exNeStore (.pt (Ex.P 1)) = .ok k ∧
    (exNe bind).validate (.pt (Ex.P 1)) = .ok () ∧ Holds exNeStore k exHeapVal ∧
    (exNe bind).g.val ≠ 0 ∧ (exNe bind).g.grp.order.Prime ∧
    ∀ p ∈ [(exNe bind).g, (exNe bind).lhs0, (exNe bind).h, (exNe bind).lhs1],
      ((exNe bind).g.grp.order : Int) • p.val = 0 := by
  cases bind
  · refine ⟨_, rfl, by decide, .all _ _ _ ?_, by decide, (by decide : Nat.Prime 7), by decide⟩
    intro t ht
    simp only [List.mem_cons, List.not_mem_nil, or_false] at ht
    rcases ht with rfl | rfl <;> exact .rep _ _ (by decide) (by decide)
  · refine ⟨_, rfl, by decide, .all _ _ _ ?_, by decide, (by decide : Nat.Prime 7), by decide⟩
    intro t ht
    simp only [List.mem_cons, List.not_mem_nil, or_false] at ht
    rcases ht with rfl | rfl | rfl <;> exact .rep _ _ (by decide) (by decide)

/-- **C35** The same for accepted protocol runs: if, after some precommitment, the verifier accepts answers to
two challenges that differ modulo the order, for the same commitment, then there is an `x` with `H0 = x h0` and
`H1 ≠ x h1`; with `bind` it is the value extracted from the responses for the shared secret. -/
theorem C35_accepted (s : NotEqual E) (σ : Store) (t1 : Stmt E) (v com r r' : Val E) (c c' : Int)
    (hq : s.g.grp.order.Prime) (hgrp : s.h.grp = s.g.grp)
    (htor : ∀ p ∈ [s.g, s.lhs0, s.h, s.lhs1], (s.g.grp.order : Int) • p.val = 0) (hg : s.g.val ≠ 0)
    (hd : digestPrecommitment σ (Tree.freshVerifier s.stmt) v = .ok t1)
    (htv : ∀ p, v = .pt p → (s.g.grp.order : Int) • p.val = 0)
    (hne : ¬ (s.g.grp.order : Int) ∣ c - c')
    (h : verifyResponse σ t1 com c r = .ok true) (h' : verifyResponse σ t1 com c' r' = .ok true) :
    ∃ x : Int, s.lhs0.val = x • s.g.val ∧ s.lhs1.val ≠ x • s.h.val ∧
      (s.bind = true → ∃ (r3 r3' : Val E) (a a' u : Int), r.index 2 = .ok r3 ∧ r'.index 2 = .ok r3' ∧
        r3.index 0 = .ok (.int a) ∧ r3'.index 0 = .ok (.int a') ∧
        (s.g.grp.order : Int) ∣ u * (c - c') - 1 ∧ x = u * (a - a')) := by
  obtain ⟨S, k, hdig, hk⟩ := verifyResponse_stmt hd h
  rw [hk] at h h'
  obtain ⟨_, hcon, hval⟩ := digestedTop_ext hdig
  have hcon' : s.construct σ v = .ok k := hcon
  have hval' : s.validate v = .ok () := hval
  obtain ⟨p, kv, kv', hvp, g0, g1, rest, hkeq, hbt, hbf⟩ := NotEqual.construct_inv hcon'
  obtain ⟨u, hu⟩ := exists_inv hq hne
  have hwf : OrFree k ∧ WellFormed k ∧ Killed (s.g.grp.order : Int) k := by
    subst hkeq
    have hp := htv p hvp
    simp only [List.mem_cons, List.not_mem_nil, or_false, forall_eq_or_imp, forall_eq] at htor
    obtain ⟨t1, t2, t3, t4⟩ := htor
    cases hb : s.bind with
    | false =>
      rw [hbf hb]
      refine ⟨.all _ _ ?_, ?_, ?_⟩
      · intro t ht
        simp only [List.mem_cons, List.not_mem_nil, or_false] at ht
        rcases ht with rfl | rfl <;> exact .rep _
      · simp [WellFormed, WellFormedL]
      · simp only [Killed, KilledL, Grp.inf, List.mem_cons, List.not_mem_nil, or_false, forall_eq_or_imp,
          forall_eq, smul_zero]
        exact ⟨⟨trivial, t1, t2⟩, ⟨hp, t3, t4⟩, trivial⟩
    | true =>
      obtain ⟨kv'', hr⟩ := hbt hb
      rw [hr]
      refine ⟨.all _ _ ?_, ?_, ?_⟩
      · intro t ht
        simp only [List.mem_cons, List.not_mem_nil, or_false] at ht
        rcases ht with rfl | rfl | rfl <;> exact .rep _
      · simp [WellFormed, WellFormedL]
      · simp only [Killed, KilledL, Grp.inf, List.mem_cons, List.not_mem_nil, or_false, forall_eq_or_imp,
          forall_eq, smul_zero]
        exact ⟨⟨trivial, t1, t2⟩, ⟨hp, t3, t4⟩, ⟨t2, t1⟩, trivial⟩
  obtain ⟨X, hX, hocc⟩ := C18_and_extraction σ k com r r' c c' u s.g.grp.order hwf.1 hwf.2.1 hwf.2.2
    (Int.emod_eq_emod_iff_emod_sub_eq_zero.mpr (Int.emod_eq_zero_of_dvd hu)) h h'
  obtain ⟨hex, hbind⟩ := C35_witness s σ v k X hq hgrp htor hg hcon' hval' hX
  cases hb : s.bind with
  | false =>
    obtain ⟨x, h1, h2⟩ := hex
    exact ⟨x, h1, h2, by simp⟩
  | true =>
    obtain ⟨h1, h2⟩ := hbind hb
    refine ⟨_, h1, h2, fun _ => ?_⟩
    obtain ⟨kv'', hr⟩ := hbt hb
    rw [hr] at hkeq
    have get3 : ∀ (c : Int) (r : Val E), verifyResponse σ k com c r = .ok true →
        ∃ (r3 : Val E) (a : Int), r.index 2 = .ok r3 ∧ r3.index 0 = .ok (.int a) ∧ Occ k r s.x (.int a) := by
      intro c r h
      obtain ⟨⟨ρ, ha⟩, he⟩ := verifyResponse_iff.mp h
      subst hkeq
      cases ha with
      | all _ _ _ _ ri hri ha =>
      cases he with
      | all _ _ _ _ coms ri' hlen hri' he =>
      have e2 : ri 2 = ri' 2 := Except.ok.inj ((hri 2 (by simp)).symm.trans (hri' 2 (by simp)))
      obtain ⟨com3, hcom3⟩ : ∃ com3, coms[2]? = some com3 :=
        ⟨coms[2]'(by rw [hlen]; simp), List.getElem?_eq_getElem _⟩
      have a3 := ha 2 _ rfl
      have q3 := he 2 _ com3 rfl hcom3
      rw [← e2] at q3
      obtain ⟨_, _, i3⟩ := rep_responses rfl a3 q3
      have i4 := i3 s.x (by simp)
      cases a3 with
      | rep _ _ _ a3 =>
      have i5 := a3 0 s.x rfl
      rw [i4] at i5
      exact ⟨ri 2, _, hri 2 (by simp), i5, .all _ _ _ _ 2 _ _ _ rfl (hri 2 (by simp))
        (.rep _ _ 0 _ _ rfl i5)⟩
    obtain ⟨r3, a, i1, i2, i3⟩ := get3 c r h
    obtain ⟨r3', a', j1, j2, j3⟩ := get3 c' r' h'
    exact ⟨r3, r3', a, a', u, i1, j1, i2, j2, hu, hocc _ _ _ i3 j3⟩

/-- The hypotheses are met by `exNe` with precommitment `1`, commitments for all randomizers 0, challenges 0
and 1. -/
example : ∃ t1, digestPrecommitment exNeStore (Tree.freshVerifier (exNe true).stmt) (.pt (Ex.P 1)) = .ok t1 ∧
    verifyResponse exNeStore t1 (.list [.pt (Ex.P 0), .pt (Ex.P 0), .pt (Ex.P 0)]) 0
      (.list [.list [.int 0, .int 0], .list [.int 0, .int 0], .list [.int 0]]) = .ok true ∧
    verifyResponse exNeStore t1 (.list [.pt (Ex.P 0), .pt (Ex.P 0), .pt (Ex.P 0)]) 1
      (.list [.list [.int 2, .int 6], .list [.int 2, .int 6], .list [.int 2]]) = .ok true :=
  ⟨_, rfl, by decide, by decide⟩

end Zksk.Props
