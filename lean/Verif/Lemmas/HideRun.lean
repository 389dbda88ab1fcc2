import Verif.SpecHide
import Verif.Lemmas.SimRun
import Verif.Lemmas.BBSRun

/-! The primitives whose precommitments can be imitated. -/

set_option linter.unusedSectionVars false

namespace Zksk

open Spec

variable {E : Type} [AddCommGroup E] [DecidableEq E]

namespace NotEqual

theorem imitates {s : NotEqual E} {σ σs : Store} {d : Dict Int} {x δ : Int} (hq : s.g.grp.order.Prime)
    (hgrp : s.lhs1.grp = s.h.grp ∧ s.gen.grp = s.h.grp) (hpriv : s.x ≠ s.alpha ∧ s.x ≠ s.beta)
    (hx : σ.value s.x = some x) (hne : s.lhs1.val ≠ x • s.h.val) (hδ : x • s.h.val - s.lhs1.val = δ • s.gen.val)
    (htor : (s.g.grp.order : Int) • s.gen.val = 0) (F : Profile E) (hR : F.reads s.spec s.x) :
    Imitates F s.g.grp.order 1 σ σs d s.spec := by
  have hord := hq.ne_zero
  have : NeZero s.g.grp.order := ⟨hord⟩
  have hd : ¬ (s.g.grp.order : Int) ∣ δ := by
    rintro ⟨k, rfl⟩
    rw [mul_comm, mul_smul, htor, smul_zero, sub_eq_zero] at hδ
    exact hne hδ.symm
  let f : (Fin 1 → Fin s.g.grp.order) → Fin 1 → Fin s.g.grp.order := fun y j => red _ (((y j : Nat) : Int) * δ)
  have hf : Function.Injective f := by
    intro y y' h
    funext j
    exact fin_eq_of_dvd (prime_cancel hq hd (red_eq_dvd (congrFun h j)))
  refine ⟨permOf f hf, fun y σ' hσ => ?_⟩
  have hperm : permOf f hf y = f y := rfl
  have hx' : σ'.value s.x = some x := by rw [← hx]; exact congrArg Prod.snd (hσ s.x (.inl hR))
  refine ⟨.pt (s.blinded x ((y 0 : Nat) : Int)), s.after σ' x ((y 0 : Nat) : Int), fun rest => ⟨?_, ?_⟩⟩
  · have h := NotEqual.precommit_of (w := ⟨σ', tape y rest⟩) hgrp.1 hpriv hord hx'
    simp only at h
    rw [tape_mod y rest Nat.one_pos, tape_drop y rest] at h
    exact h
  · have h := NotEqual.simPrecommit_of (s := s) hord ⟨σs, tape (f y) rest⟩
    simp only at h
    rw [tape_drop (f y) rest, tape_mod (f y) rest Nat.one_pos] at h
    rw [hperm]
    refine h.trans ?_
    simp only [Except.ok.injEq, Prod.mk.injEq, and_true]
    unfold NotEqual.blinded
    rw [hgrp.2, hδ, smul_smul]
    congr 2
    exact smul_eq_of_dvd htor (red_dvd _)

theorem plain (s : NotEqual E) : Plain s.spec := by
  refine ⟨s.alpha :: s.beta :: s.alpha :: s.beta :: if s.bind then [s.x] else [], fun σ v k hk => ?_⟩
  have hk' : s.construct σ v = .ok k := hk
  obtain ⟨c, _, _, rfl, g1, g2, _⟩ := construct_inv hk'
  rw [construct_of g1 g2] at hk'
  cases hk'
  refine ⟨built_orFree s σ c, ?_⟩
  unfold built
  cases s.bind <;> rfl

theorem leafFor_self (s : NotEqual E) (σs : Store) (flag : Bool) (v : Val E) (k k' : Option (Core E)) :
    LeafFor σs (.ext ⟨s.spec, flag, v, k, k'⟩) (.ext ⟨s.spec, flag, v, k, k'⟩) := by
  cases verifierFor (s := s) σs flag v k k' flag v k k' with
  | leaf _ _ h => exact h

end NotEqual

namespace BBS

theorem imitates {s : BBS E} {gen : E} {σ σs : Store} {d : Dict Int} {sig : Signature E} {b0 b1 b2 : Pt E}
    {a1 a2 α : Int} (hsig : s.signature = some sig)
    (hb : s.bases[0]? = some b0 ∧ s.bases[1]? = some b1 ∧ s.bases[2]? = some b2)
    (hgrp : b1.grp = b0.grp ∧ b2.grp = b0.grp ∧ sig.A.grp = b0.grp) (hq : b0.grp.order.Prime)
    (htor : (b0.grp.order : Int) • gen = 0) (h1 : b1.val = a1 • gen) (h2 : b2.val = a2 • gen) (h20 : b2.val ≠ 0)
    (hA : sig.A.val = α • gen) (F : Profile E) : Imitates F b0.grp.order 2 σ σs d (s.spec gen) := by
  have hord := hq.ne_zero
  have : NeZero b0.grp.order := ⟨hord⟩
  have hd : ¬ (b0.grp.order : Int) ∣ a2 := by
    rintro ⟨k, rfl⟩
    rw [mul_comm, mul_smul, htor, smul_zero] at h2
    exact h20 h2
  let f : (Fin 2 → Fin b0.grp.order) → Fin 2 → Fin b0.grp.order := fun y j =>
    red _ (if j = 0 then ((y 0 : Nat) : Int) * a1 + ((y 1 : Nat) : Int) * a2 else ((y 0 : Nat) : Int) * a2 + α)
  have hf : Function.Injective f := by
    intro y y' h
    have e1 := red_eq_dvd (congrFun h 1)
    simp only [Fin.isValue, one_ne_zero, if_false, add_sub_add_right_eq_sub] at e1
    have e1 := fin_eq_of_dvd (prime_cancel hq hd e1)
    have e2 := red_eq_dvd (congrFun h 0)
    simp only [Fin.isValue, if_true, e1, add_sub_add_left_eq_sub] at e2
    have e2 := fin_eq_of_dvd (prime_cancel hq hd e2)
    funext j
    match j with
    | 0 => exact e1
    | 1 => exact e2
  refine ⟨permOf f hf, fun y σ' _ => ?_⟩
  have hperm : permOf f hf y = f y := rfl
  refine ⟨.dict [("A1", .pt ⟨b0.grp, ((y 0 : Nat) : Int) • b1.val + ((y 1 : Nat) : Int) • b2.val⟩),
      ("A2", .pt ⟨b0.grp, ((y 0 : Nat) : Int) • b2.val + sig.A.val⟩)],
    s.after sig.e b0.grp.order σ' ((y 0 : Nat) : Int) ((y 1 : Nat) : Int), fun rest => ⟨?_, ?_⟩⟩
  · have h := BBS.precommit_of hsig hb.1 hb.2.1 hb.2.2 hgrp.1 hgrp.2.1 hgrp.2.2 hord ⟨σ', tape y rest⟩
    simp only at h
    rw [tape_drop y rest, tape_mod y rest Nat.two_pos, tape_mod y rest Nat.one_lt_two] at h
    exact h
  · have h := BBS.simPrecommit_of gen hb.1 hord ⟨σs, tape (f y) rest⟩
    simp only at h
    rw [tape_drop (f y) rest, tape_mod (f y) rest Nat.two_pos, tape_mod (f y) rest Nat.one_lt_two] at h
    rw [hperm]
    refine h.trans ?_
    simp only [Except.ok.injEq, Prod.mk.injEq, and_true]
    rw [h1, h2, hA, smul_smul, smul_smul, smul_smul, ← add_smul, ← add_smul]
    have e1 : ((f y ⟨0, Nat.two_pos⟩ : Nat) : Int) • gen = _ := smul_eq_of_dvd htor (red_dvd _)
    have e2 : ((f y ⟨1, Nat.one_lt_two⟩ : Nat) : Int) • gen = _ := smul_eq_of_dvd htor (red_dvd _)
    rw [e1, e2]
    rfl

theorem plain {P : Pairing E} {s : BBS E} (hP : s.P = P) (hk : GoodKey P s.pk) (gen : E) : Plain (s.spec gen) := by
  refine ⟨match s.vars with
    | ve :: vs :: vm => s.r1 :: s.r2 :: s.delta1 :: s.delta2 :: ve :: ve :: s.r1 :: s.delta1 :: vs :: vm
    | _ => [], fun σ v k hc => ?_⟩
  have hc' : s.construct σ v = .ok k := hc
  obtain ⟨a1, a2, g0, g1, g2, gs, ve, vs, vm, e1, e2, hg, hv, hvm, hl, ga1, ga2, rfl⟩ := construct_inv hP hk hc'
  refine ⟨built_orFree, ?_⟩
  simp [hv, secrets, secretsL, parts]

end BBS
end Zksk
