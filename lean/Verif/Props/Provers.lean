import Verif.Lemmas.Wrong
import Verif.Lemmas.Shift
import Verif.Examples
import Mathlib.Data.Int.GCD

/-! # C16, C26, C29 – C32: provers -/

set_option linter.unusedSectionVars false

namespace Zksk.Props

open Spec

variable {E : Type} [AddCommGroup E] [DecidableEq E]

/-! ### C16 -/

/-- Helper: an element killed by a prime and by a number that is no multiple of it is zero. -/
private theorem eq_zero_of_prime {q : Nat} (hq : q.Prime) {c : Int} (hc : c % (q : Int) ≠ 0) {D : E}
    (h1 : (q : Int) • D = 0) (h2 : c • D = 0) : D = 0 := by
  have hcop : Nat.Coprime q c.natAbs := by
    refine (Nat.Prime.coprime_iff_not_dvd hq).mpr fun hd => hc ?_
    exact Int.emod_eq_zero_of_dvd (Int.natCast_dvd.mpr hd)
  have hab := Int.gcd_eq_gcd_ab (q : Int) c
  have h1g : Int.gcd (q : Int) c = 1 := by simpa [Int.gcd] using hcop
  rw [h1g, Nat.cast_one] at hab
  calc D = (1 : Int) • D := by simp
    _ = 0 := by
      rw [hab, add_smul, mul_comm, mul_smul, h1, mul_comm, mul_smul, h2]; simp

/-- **C16** Wrong secrets are rejected: a representation prover that runs with values not satisfying
`lhs = Σ xᵢ Gᵢ`, in a group of prime order, has its answer rejected for every challenge that is not zero
modulo the order, whatever the random draws. -/
theorem C16_wrong_secrets_rejected (s : DLRep E) (t1 : Core E) (p p1 p2 : CoreProver E) (d : Dict Int)
    (w w1 w2 w3 : World) (v com : Val E) (X : Key → Int)
    (hlen : s.secretVars.length = s.bases.length) (hgrp : ∀ b ∈ s.bases, b.grp = s.lhs.grp)
    (hprime : s.lhs.grp.order.Prime)
    (htor : ∀ b ∈ s.bases, (s.lhs.grp.order : Int) • b.val = 0)
    (htorl : (s.lhs.grp.order : Int) • s.lhs.val = 0) (hd : d.Uniq w.store)
    (hval : ∀ x ∈ s.secretVars, given w.store d s x = some (X (w.store.key x)))
    (hwrong : s.lhs.val ≠ (List.zipWith (fun x b => X (w.store.key x) • b.val) s.secretVars s.bases).sum)
    (h : PTree.getProver (.leaf s) d w = .ok ((some p, t1), w1))
    (hpre : PTree.precommit p w1 = .ok ((v, p1), w2))
    (hcom : PTree.internalCommit p1 none w2 = .ok ((com, p2), w3)) (c : Int)
    (hc : c % (s.lhs.grp.order : Int) ≠ 0) :
    ∃ r w', PTree.computeResponse p2 c w3 = .ok (r, w') ∧
      verifyResponse w.store (.leaf s) com c r = .ok false := by
  simp only [PTree.getProver] at h
  obtain ⟨⟨p?, s'⟩, w1', h1, h⟩ := pm_bind.mp h
  rw [pm_pure_iff, Prod.mk.injEq, Prod.mk.injEq] at h
  obtain ⟨⟨h2, h3⟩, h4⟩ := h
  obtain ⟨e1, e2, e3⟩ := getProver_dlrep h1
  cases p? with
  | none => simp at h2
  | some q =>
  simp only [Option.map_some, Option.some.injEq] at h2
  subst h2
  obtain ⟨f1, f2, f3⟩ := e3 q rfl
  have hb : q.stmt.bases = s.bases := by have := congrArg DLRep.bases f1; exact this
  have hvs : q.stmt.secretVars = s.secretVars := by have := congrArg DLRep.secretVars f1; exact this
  have hl : q.stmt.lhs = s.lhs := by have := congrArg DLRep.lhs f1; exact this
  have hww : w1 = w := by rw [← h4, e1]
  have hpre' : (pure (Val.none, (PTree.leaf q : CoreProver E)) : PM _) w1 = .ok ((v, p1), w2) := hpre
  rw [pm_pure_iff, Prod.mk.injEq, Prod.mk.injEq] at hpre'
  obtain ⟨⟨_, rfl⟩, hw2⟩ := hpre'
  rw [← hw2, hww] at hcom
  simp only [PTree.internalCommit] at hcom
  obtain ⟨⟨com', q'⟩, w4, h5, hcom⟩ := pm_bind.mp hcom
  rw [pm_pure_iff, Prod.mk.injEq, Prod.mk.injEq] at hcom
  obtain ⟨⟨rfl, rfl⟩, rfl⟩ := hcom
  obtain ⟨g1, g2, v', rfl, g3⟩ := commit_any q (σ := w.store) (X := X) (by
      intro x hx
      rw [hvs] at hx
      have := hval x hx
      rw [f3]
      unfold given at this
      cases hdx : Dict.get? w.store d x with
      | some v => rw [hdx] at this; rw [Dict.get?_update_uniq hd _ x v hdx]; exact this
      | none => rw [hdx] at this; rw [Dict.get?_update_of_none _ hdx]; exact this)
    (by rw [hb, hl]; exact hgrp)
    (fun x b hx => by
      have := (List.of_mem_zip hx).2
      rw [hb] at this
      rw [hgrp b this]; exact htor b this)
    (by simp only [WellFormed, hb, hvs]; exact hlen) (by simp) rfl h5
  obtain ⟨r, w5, i1, i2, ⟨ρ, i3⟩, i4⟩ := g3 c w4 g1
  refine ⟨r, w5, i1, ?_⟩
  have hag : Agree w.store (.leaf s) r ρ := by
    cases i3 with
    | rep _ _ _ h => exact .rep _ _ _ (hvs ▸ h)
  have hsh : shape (.leaf s : Core E) = shape (.leaf q.stmt) := by simp only [shape, hb, hvs, hl]
  unfold verifyResponse preVerification
  obtain ⟨d', hd'⟩ := consistency_iff.mpr ⟨ρ, hag⟩
  rw [validate_core, bind_ok, hd', bind_ok]
  simp only [if_true]
  rw [bind_ok, recompute_skel _ _ _ _ hsh, (recompute_iff _ _ _ _).mpr i4, bind_ok]
  simp only [Except.ok.injEq, decide_eq_false_iff_not, Val.pt.injEq, Pt.mk.injEq, true_and]
  intro h0
  have h0' : c • (rhsVal w.store q.stmt X - q.stmt.lhs.val) = 0 := by
    have := h0.symm
    rwa [add_eq_left] at this
  have hD : rhsVal w.store q.stmt X - q.stmt.lhs.val = 0 := by
    refine eq_zero_of_prime hprime hc ?_ h0'
    rw [smul_sub, hl, htorl, sub_zero]
    unfold rhsVal
    rw [hb, hvs, smul_list_sum, List.sum_eq_zero]
    intro e he
    obtain ⟨a, ha, rfl⟩ := List.mem_map.mp he
    obtain ⟨i, hi⟩ := List.mem_iff_getElem?.mp ha
    rw [List.getElem?_zipWith] at hi
    cases hx : s.secretVars[i]? with
    | none => simp [hx] at hi
    | some x =>
      cases hbi : s.bases[i]? with
      | none => simp [hx, hbi] at hi
      | some b =>
        simp only [hx, hbi, Option.some.injEq] at hi
        rw [← hi, smul_comm, htor b (List.mem_of_getElem? hbi), smul_zero]
  refine hwrong ?_
  rw [← hl, ← sub_eq_zero.mp hD]
  unfold rhsVal
  rw [hb, hvs]

/-- `6 = x0·3` with the wrong value `x0 = 1`, challenge 1. -/
example : ∃ (p p2 : CoreProver (ZMod 7)) (t1 : Core (ZMod 7)) (w1 w3 : World) (com r : Val (ZMod 7)),
    PTree.getProver (.leaf Ex.rep2) [(0, 1)] ⟨Ex.σ, fun i => i + 4⟩ = .ok ((some p, t1), w1) ∧
    PTree.internalCommit p none w1 = .ok ((com, p2), w3) ∧
    PTree.computeResponse p2 1 w3 = .ok (r, w3) ∧
    verifyResponse Ex.σ (.leaf Ex.rep2) com 1 r = .ok false := ⟨_, _, _, _, _, _, _, rfl, rfl, rfl, rfl⟩

/-! ### C26 -/

/-- **C26** Adding multiples of the group order to the responses of a representation, the same multiple
wherever the same secret re-occurs, changes nothing in the result of `verify()`: same verdict or same
exception.  (Responses are not required to be reduced, so accepted proofs are malleable.) -/
theorem C26_responses_mod_order (env : Env E) (σ : Store) (s : DLRep E) (nizk nizk' : NIZK E)
    (msg : String) (ws ws' : List Int) (m : Key → Int)
    (hlen : s.secretVars.length = s.bases.length)
    (htor : ∀ b ∈ s.bases, (s.lhs.grp.order : Int) • b.val = 0)
    (hr : nizk.responses = .list (ws.map .int)) (hr' : nizk'.responses = .list (ws'.map .int))
    (hc : nizk'.challenge = nizk.challenge) (hp : nizk'.precommitment = nizk.precommitment)
    (hh : nizk'.stmtHash = nizk.stmtHash) (hl : ws'.length = ws.length)
    (hw : ∀ (i : Nat) (w : Int) (x : Sec), ws[i]? = some w → s.secretVars[i]? = some x →
      ws'[i]? = some (w + s.lhs.grp.order * m (σ.key x))) :
    verify env σ (.leaf s) nizk' msg = verify env σ (.leaf s) nizk msg := by
  have hcons : DLRep.consistencyGo σ nizk'.responses s.secretVars 0 [] =
      (DLRep.consistencyGo σ nizk.responses s.secretVars 0 []).map fun bd =>
        (bd.1, shiftDict σ (fun κ => s.lhs.grp.order * m κ) bd.2) := by
    refine consistencyGo_shift (M := fun κ => s.lhs.grp.order * m κ) s.secretVars 0 [] fun j x hx => ?_
    rw [hr, hr', Nat.zero_add]
    simp only [Val.index, List.getElem?_map]
    cases hj : ws[j]? with
    | none =>
      have : ws'[j]? = none := by rw [List.getElem?_eq_none_iff] at hj ⊢; omega
      rw [this]; rfl
    | some w => rw [hw j w x hj hx]; rfl
  have hrec : ∀ c, DLRep.recompute s c nizk'.responses = DLRep.recompute s c nizk.responses := by
    intro c
    unfold DLRep.recompute Grp.wsum
    rw [hr, hr']
    simp only [Val.elems, bind_ok, List.length_map, hl]
    rw [wsumGo_shift ws ws' s.bases _ hl]
    intro i w b hi hb
    obtain ⟨x, hx⟩ : ∃ x, s.secretVars[i]? = some x := by
      have := (List.getElem?_eq_some_iff.mp hb).1
      exact ⟨_, List.getElem?_eq_getElem (by omega)⟩
    exact ⟨_, hw i w x hi hx, by rw [mul_comm, mul_smul, htor b (List.mem_of_getElem? hb), smul_zero]⟩
  unfold verify
  rw [hc, hp, hh, fresh_core]
  have hdp : ∀ v, digestPrecommitment σ (.leaf s : Core E) v = .ok (.leaf s) := by
    intro v; unfold digestPrecommitment; split <;> rfl
  rw [hdp, bind_ok, bind_ok]
  have hpre : preVerification σ (.leaf s : Core E) nizk'.responses =
      preVerification σ (.leaf s : Core E) nizk.responses := by
    unfold preVerification
    rw [validate_core, bind_ok, bind_ok]
    show (DLRep.consistencyGo σ nizk'.responses s.secretVars 0 [] >>= _) =
      (DLRep.consistencyGo σ nizk.responses s.secretVars 0 [] >>= _)
    rw [hcons]
    cases DLRep.consistencyGo σ nizk.responses s.secretVars 0 [] with
    | error e => rfl
    | ok bd => rfl
  rw [hpre]
  have hrec' : ∀ c, Tree.recompute (.leaf s : Core E) c nizk'.responses =
      Tree.recompute (.leaf s) c nizk.responses := hrec
  simp only [hrec']

/-- The proof of `1 = x0·1 + x1·2` with responses (1, 2) and the same with (8, −12). -/
example : verify (Ex.env 3) Ex.σ (.leaf Ex.rep1) ⟨3, .list [.int 1, .int 2], .none, []⟩ "m" = .ok true ∧
    verify (Ex.env 3) Ex.σ (.leaf Ex.rep1) ⟨3, .list [.int 8, .int (-12)], .none, []⟩ "m" = .ok true := by
  have h : verify (Ex.env 3) Ex.σ (.leaf Ex.rep1) ⟨3, .list [.int 1, .int 2], .none, []⟩ "m" = .ok true := rfl
  refine ⟨h, ?_⟩
  rw [← h]
  refine C26_responses_mod_order (Ex.env 3) Ex.σ Ex.rep1 ⟨3, .list [.int 1, .int 2], .none, []⟩ _ "m"
    [1, 2] [8, -12] (fun κ => if κ.1 = "x0" then 1 else -2) rfl
    (by intro b hb; simp only [Ex.rep1, Ex.P, List.mem_cons, List.not_mem_nil, or_false] at hb
        rcases hb with rfl | rfl <;> decide) rfl rfl rfl rfl rfl rfl ?_
  intro i w x hi hx
  match i with
  | 0 =>
    simp only [List.getElem?_cons_zero, Option.some.injEq, Ex.rep1] at hi hx
    subst hi; subst hx; rfl
  | 1 =>
    simp only [List.getElem?_cons_zero, List.getElem?_cons_succ, Option.some.injEq, Ex.rep1] at hi hx
    subst hi; subst hx; rfl
  | n + 2 => simp at hi

end Zksk.Props
