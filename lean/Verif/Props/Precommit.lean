import Verif.Lemmas.SimRun
import Verif.Props.RangeComplete
import Verif.Props.BBSProof

/-! # C61: simulated precommitments look like real ones -/

set_option linter.unusedSectionVars false

namespace Zksk.Props

open Spec

variable {E : Type} [AddCommGroup E] [DecidableEq E]

/-- Each result is given equally often. -/
theorem sameOutputs_counts {A : Type} {n q : Nat} {p p' : PM A} {σ σ' : Store} (h : SameOutputs n q p σ p' σ')
    (rest : Nat → Nat) (v : A) :
    Nat.card {y : Fin n → Fin q // ∃ w, p ⟨σ, tape y rest⟩ = .ok (v, w)} =
    Nat.card {y : Fin n → Fin q // ∃ w, p' ⟨σ', tape y rest⟩ = .ok (v, w)} := by
  obtain ⟨e, h⟩ := h
  refine Nat.card_congr (e.subtypeEquiv fun y => ?_)
  obtain ⟨v', w, w', h1, _, h2, _⟩ := h y rest
  rw [h1, h2]
  simp only [Except.ok.injEq, Prod.mk.injEq]
  constructor
  · rintro ⟨_, hv, _⟩; exact ⟨_, hv, rfl⟩
  · rintro ⟨_, hv, _⟩; exact ⟨_, hv, rfl⟩

/-- **C61** For a range statement with at least one bit, whose first base is a multiple of the second one, whose
second base has an order dividing the order of the group, and whose commitment is to a value in the range:
`simulate_precommit()`, from any values of the secrets, gives every precommitment as often as `precommit()`. -/
theorem C61_range (s : PowerTwo E) (σ σs : Store) (x r a : Int) (hn : s.numBits ≠ 0) (hord : s.g.grp.order ≠ 0)
    (hp : s.isProver = true) (hgrp : s.h.grp = s.g.grp ∧ s.com.grp = s.g.grp) (hnd : s.rands.Nodup)
    (hr : s.r ∉ s.rands) (ha : s.g.val = a • s.h.val) (htor : (s.g.grp.order : Int) • s.h.val = 0)
    (hx : σ.value s.x = some x ∧ 0 ≤ x ∧ x < 2 ^ s.numBits) (hrv : σ.value s.r = some r)
    (hc : s.com.val = x • s.g.val + r • s.h.val) :
    SameOutputs s.numBits s.g.grp.order s.precommit σ s.simPrecommit σs := by
  have : NeZero s.g.grp.order := ⟨hord⟩
  obtain ⟨bs, hb⟩ := decompose_isOk hx.2.1 hx.2.2
  obtain ⟨hl, _, hval⟩ := decompose_ok hb
  let δ : Fin s.numBits → Int := fun j => bs.getD j 0 * a - if j.val = 0 then x * a + r else 0
  let f : (Fin s.numBits → Fin s.g.grp.order) → Fin s.numBits → Fin s.g.grp.order := fun y j =>
    red _ (((y j : Nat) : Int) + δ j)
  have hf : Function.Injective f := by
    intro y y' h
    funext j
    have := red_eq_dvd (congrFun h j)
    rw [add_sub_add_right_eq_sub] at this
    exact fin_eq_of_dvd this
  refine ⟨permOf f hf, fun y rest => ?_⟩
  have hperm : permOf f hf y = f y := rfl
  obtain ⟨w₁, k1, k2⟩ := PowerTwo.precommit_given (w := ⟨σ, tape y rest⟩) hp hgrp.1 hord hnd hr hx.1 hb hrv
  have hlen := PowerTwo.drawn_length s.order s.numBits
  have hget : ∀ {i : Nat} {v u c : Int}, bs[i]? = some c →
      (PowerTwo.drawn s.order s.numBits (tape y rest))[i]? = some v →
      (PowerTwo.drawn s.order s.numBits (tape (f y) rest))[i]? = some u →
      (s.order : Int) ∣ u - (v + c * a - if i = 0 then x * a + r else 0) := by
    intro i v u c hc hv hu
    obtain ⟨hi, rfl⟩ := PowerTwo.drawn_get hv
    obtain ⟨_, rfl⟩ := PowerTwo.drawn_get hu
    have e1 := tape_mod y rest hi
    have e2 := tape_mod (f y) rest hi
    unfold PowerTwo.order
    rw [e1, e2]
    have := red_dvd (q := s.g.grp.order) (((y ⟨i, hi⟩ : Nat) : Int) + δ ⟨i, hi⟩)
    have g1 : bs.getD i 0 = c := by rw [List.getD_eq_getElem?_getD, hc]; rfl
    simp only [δ, g1] at this
    rw [← add_sub_assoc] at this
    simp only [f, δ, g1]
    rw [← add_sub_assoc]
    exact this
  cases hbs : bs with
  | nil => rw [hbs] at hl; exact (hn (by simpa using hl.symm)).elim
  | cons b bs' =>
  cases hv : PowerTwo.drawn s.order s.numBits (tape y rest) with
  | nil => have := hlen (tape y rest); rw [hv] at this; exact (hn (by simpa using this.symm)).elim
  | cons v vs =>
  cases hu : PowerTwo.drawn s.order s.numBits (tape (f y) rest) with
  | nil => have := hlen (tape (f y) rest); rw [hu] at this; exact (hn (by simpa using this.symm)).elim
  | cons u us =>
  have l1 := hlen (tape y rest)
  have l2 := hlen (tape (f y) rest)
  rw [hv] at l1
  rw [hu] at l2
  rw [hbs] at hl hval
  simp only [List.length_cons] at l1 l2 hl
  have k3 := PowerTwo.simPrecommit_given (w := ⟨σs, tape (f y) rest⟩) hord hgrp.1 hgrp.2 hu
  have hm := PowerTwo.messages_agree (G := s.g.grp) (q := s.order) hord ha htor hc (b := b) (bs := bs') (v := v)
    (vs := vs) (u := u) (us := us) (by omega) (by omega) hval
    (by
      have := hget (i := 0) (v := v) (u := u) (c := b) (by rw [hbs]; rfl) (by rw [hv]; rfl) (by rw [hu]; rfl)
      simpa using this)
    (by
      intro i c v' u' h1 h2 h3
      have := hget (i := i + 1) (v := v') (u := u') (c := c) (by rw [hbs]; exact h1) (by rw [hv]; exact h2)
        (by rw [hu]; exact h3)
      simpa using this)
  refine ⟨_, w₁, ⟨σs, fun i => tape (f y) rest (i + s.numBits)⟩, k2, by rw [k1]; exact tape_drop y rest, ?_, tape_drop (f y) rest⟩
  rw [hperm, k3, hv, hbs, hm]

/-- **C61** For a true inequality in a cyclic group of prime order: `simulate_precommit()` gives every point as
often as `precommit()`. -/
theorem C61_notequal (s : NotEqual E) (σ σs : Store) (x δ : Int) (hq : s.g.grp.order.Prime)
    (hgrp : s.lhs1.grp = s.h.grp ∧ s.gen.grp = s.h.grp) (hpriv : s.x ≠ s.alpha ∧ s.x ≠ s.beta)
    (hx : σ.value s.x = some x) (hne : s.lhs1.val ≠ x • s.h.val) (hδ : x • s.h.val - s.lhs1.val = δ • s.gen.val)
    (htor : (s.g.grp.order : Int) • s.gen.val = 0) :
    SameOutputs 1 s.g.grp.order s.precommit σ s.simPrecommit σs := by
  have hord := hq.ne_zero
  have : NeZero s.g.grp.order := ⟨hord⟩
  have hd : ¬ (s.g.grp.order : Int) ∣ δ := by
    rintro ⟨k, rfl⟩
    rw [mul_comm, mul_smul, htor, smul_zero, sub_eq_zero] at hδ
    exact hne hδ.symm
  let f : (Fin 1 → Fin s.g.grp.order) → Fin 1 → Fin s.g.grp.order := fun y j => red _ (((y j : Nat) : Int) * δ)
  have hf : Function.Injective f := by
    intro y y' h
    funext j
    exact fin_eq_of_dvd (prime_cancel hq hd (red_eq_dvd (congrFun h j)))
  refine ⟨permOf f hf, fun y rest => ?_⟩
  have hperm : permOf f hf y = f y := rfl
  refine ⟨_, _, ⟨σs, fun i => tape (f y) rest (i + 1)⟩, NotEqual.precommit_of (w := ⟨σ, tape y rest⟩) hgrp.1 hpriv hord hx, tape_drop y rest, ?_,
    tape_drop (f y) rest⟩
  rw [hperm, NotEqual.simPrecommit_of hord]
  simp only [Except.ok.injEq, Prod.mk.injEq, and_true]
  unfold NotEqual.blinded
  rw [hgrp.2, hδ, smul_smul, tape_mod (f y) rest Nat.one_pos, tape_mod y rest Nat.one_pos]
  congr 2
  exact smul_eq_of_dvd htor (red_dvd _)

/-- **C61** For a BBS+ proof whose second and third generator and signature are multiples of the generator of
`G1`, of prime order, the third generator not being zero: `simulate_precommit()` gives every pair of points as
often as `precommit()`. -/
theorem C61_bbs (s : BBS E) (gen : E) (σ σs : Store) (sig : Signature E) (b0 b1 b2 : Pt E) (a1 a2 α : Int)
    (hsig : s.signature = some sig) (hb : s.bases[0]? = some b0 ∧ s.bases[1]? = some b1 ∧ s.bases[2]? = some b2)
    (hgrp : b1.grp = b0.grp ∧ b2.grp = b0.grp ∧ sig.A.grp = b0.grp) (hq : b0.grp.order.Prime)
    (htor : (b0.grp.order : Int) • gen = 0) (h1 : b1.val = a1 • gen) (h2 : b2.val = a2 • gen) (h20 : b2.val ≠ 0)
    (hA : sig.A.val = α • gen) :
    SameOutputs 2 b0.grp.order s.precommit σ (s.simPrecommit gen) σs := by
  have hord := hq.ne_zero
  have : NeZero b0.grp.order := ⟨hord⟩
  have hd : ¬ (b0.grp.order : Int) ∣ a2 := by
    rintro ⟨k, rfl⟩
    rw [mul_comm, mul_smul, htor, smul_zero] at h2
    exact h20 h2
  let f : (Fin 2 → Fin b0.grp.order) → Fin 2 → Fin b0.grp.order := fun y j =>
    red _ (if j = 0 then ((y 0 : Nat) : Int) * a1 + ((y 1 : Nat) : Int) * a2 else ((y 0 : Nat) : Int) * a2 + α)
  have hf : Function.Injective f := by
    intro y y' h
    have e1 := red_eq_dvd (congrFun h 1)
    simp only [Fin.isValue, one_ne_zero, if_false, add_sub_add_right_eq_sub] at e1
    have e1 := fin_eq_of_dvd (prime_cancel hq hd e1)
    have e2 := red_eq_dvd (congrFun h 0)
    simp only [Fin.isValue, if_true, e1, add_sub_add_left_eq_sub] at e2
    have e2 := fin_eq_of_dvd (prime_cancel hq hd e2)
    funext j
    match j with
    | 0 => exact e1
    | 1 => exact e2
  refine ⟨permOf f hf, fun y rest => ?_⟩
  have hperm : permOf f hf y = f y := rfl
  refine ⟨_, _, ⟨σs, fun i => tape (f y) rest (i + 2)⟩,
    BBS.precommit_of hsig hb.1 hb.2.1 hb.2.2 hgrp.1 hgrp.2.1 hgrp.2.2 hord ⟨σ, tape y rest⟩,
    tape_drop y rest, ?_, tape_drop (f y) rest⟩
  rw [hperm, BBS.simPrecommit_of gen hb.1 hord]
  simp only [Except.ok.injEq, Prod.mk.injEq, and_true]
  rw [tape_mod (f y) rest Nat.two_pos, tape_mod y rest Nat.two_pos, tape_mod (f y) rest Nat.one_lt_two,
    tape_mod y rest Nat.one_lt_two, h1, h2, hA, smul_smul, smul_smul, smul_smul, ← add_smul, ← add_smul]
  have e1 : ((f y ⟨0, Nat.two_pos⟩ : Nat) : Int) • gen = _ := smul_eq_of_dvd htor (red_dvd _)
  have e2 : ((f y ⟨1, Nat.one_lt_two⟩ : Nat) : Int) • gen = _ := smul_eq_of_dvd htor (red_dvd _)
  rw [e1, e2]
  rfl

/-- The hypotheses of `C61_range` are met: the value 3 with randomizer 4, two bits, `1 = 5·3` modulo 7; the
simulator knows nothing. -/
example : SameOutputs 2 7 exThree.precommit ⟨exNeStore.name, fun y => if y = 2 then some 4 else some 3⟩
    exThree.simPrecommit ⟨exNeStore.name, fun _ => none⟩ :=
  C61_range exThree _ _ 3 4 5 (by decide) (by decide) rfl ⟨rfl, rfl⟩ (by decide) (by decide) (by decide) (by decide)
    ⟨rfl, by decide, by decide⟩ rfl (by decide)

/-- The hypotheses of `C61_notequal` are met: `2·3 - 5 = 1·1` modulo 7. -/
example : SameOutputs 1 7 (exNe true).precommit ⟨exNeStore.name, fun _ => some 2⟩ (exNe true).simPrecommit
    ⟨exNeStore.name, fun _ => none⟩ :=
  C61_notequal (exNe true) _ _ 2 1 (by decide : Nat.Prime 7) ⟨rfl, rfl⟩ (by decide) rfl (by decide) (by decide)
    (by decide)

/-- The hypotheses of `C61_bbs` are met. -/
example : SameOutputs 2 7 exBBS.precommit exMsgs (exBBS.simPrecommit 1) ⟨exMsgs.name, fun _ => none⟩ :=
  C61_bbs exBBS 1 exMsgs _ exSig ⟨exPairing.G1, 1⟩ ⟨exPairing.G1, 3⟩ ⟨exPairing.G1, 2⟩ 3 2 1 rfl ⟨rfl, rfl, rfl⟩
    ⟨rfl, rfl, rfl⟩ (by decide : Nat.Prime 7) (by decide) (by decide) (by decide) (by decide) (by decide)

end Zksk.Props
