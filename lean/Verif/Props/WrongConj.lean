import Verif.Props.WrongExt
import Verif.Lemmas.WrongConj

/-! # C99: conjunctions with a primitive proved with wrong values -/

set_option linter.unusedSectionVars false

namespace Zksk.Spec

variable {E : Type} [AddCommGroup E] [DecidableEq E]

/-- The leaf is a representation or a primitive of the library that does not have `y` among the secrets it made for
itself. -/
def NotOwn (y : Sec) : Leaf E → Prop
  | .dlrep _ => True
  | .ext e => (∃ s : NotEqual E, e.spec = s.spec ∧ y ≠ s.alpha ∧ y ≠ s.beta) ∨
      (∃ s : PowerTwo E, e.spec = s.spec ∧ y ∉ s.rands) ∨
      ∃ (s : BBS E) (gen : E), e.spec = s.spec gen ∧ GoodKey s.P s.pk ∧ y ∉ [s.r1, s.r2, s.delta1, s.delta2]

end Zksk.Spec

namespace Zksk.Props

open Spec

variable {E : Type} [AddCommGroup E] [DecidableEq E]

private theorem setValue_other {σ : Store} {x y : Sec} {v : Int} (h : y ≠ x) : (σ.setValue x v).value y = σ.value y := by
  simp [Store.setValue, h]

private theorem drawRands_other {m : Nat} {y : Sec} : ∀ (ss : List Sec) (w w' : World) (u : Unit), y ∉ ss →
    PowerTwo.drawRands m ss w = .ok (u, w') → w'.store.value y = w.store.value y
  | [], w, w', _, _, h => by
    simp only [PowerTwo.drawRands, pm_pure_iff, Prod.mk.injEq] at h
    rw [← h.2]
  | s :: ss, w, w', u, hy, h => by
    simp only [List.mem_cons, not_or] at hy
    simp only [PowerTwo.drawRands] at h
    obtain ⟨v, w1, h1, h⟩ := pm_bind.mp h
    rw [pm_getStore_bind, pm_setStore_bind] at h
    rw [drawRands_other ss _ _ _ hy.2 h]
    simp only [setValue_other hy.1, (draw_ok h1).2.2.2]

/-- Primitives of the library change no values but those of the secrets they made for themselves. -/
theorem notOwn_steady {y : Sec} {e : Ext E} (h : NotOwn y (.ext e)) :
    (∀ (w : World) (v : Val E) (w' : World), e.spec.precommit w = .ok (v, w') → w'.store.value y = w.store.value y) ∧
      ∀ σ v k, e.spec.construct σ v = .ok k → WellFormed k := by
  rcases h with ⟨s, hs, h1, h2⟩ | ⟨s, hs, h1⟩ | ⟨s, gen, hs, hk, h1⟩
  · rw [hs]
    refine ⟨fun w v w' h => ?_, fun σ v k h => ?_⟩
    · have h : s.precommit w = .ok (v, w') := h
      unfold NotEqual.precommit at h
      obtain ⟨b, w1, hb, h⟩ := pm_bind.mp h
      rw [pm_getStore_bind] at h
      cases hx : w1.store.value s.x with
      | none => simp only [hx] at h; exact (raise_ne.mp h).elim
      | some x =>
        simp only [hx] at h
        rw [pm_setStore_bind, pm_getStore_bind, pm_setStore_bind, pm_getStore_bind] at h
        simp only at h
        cases hx2 : ((w1.store.setValue s.alpha (x * b % (s.g.grp.order : Int))).setValue s.beta
            (-b % (s.g.grp.order : Int))).value s.x with
        | none => simp only [hx2] at h; exact (raise_ne.mp h).elim
        | some x2 =>
          simp only [hx2] at h
          rw [pm_liftE_bind_iff] at h
          obtain ⟨_, _, h⟩ := h
          rw [pm_pure_iff, Prod.mk.injEq] at h
          rw [← h.2]
          simp only [setValue_other h1, setValue_other h2, (draw_ok hb).2.2.2]
    · obtain ⟨p, kv, kv', hvp, g0, g1, rest, rfl, hbt, hbf⟩ := NotEqual.construct_inv (s := s) h
      cases hb : s.bind with
      | false => rw [hbf hb]; simp [WellFormed, WellFormedL]
      | true =>
        obtain ⟨kv'', hr⟩ := hbt hb
        rw [hr]; simp [WellFormed, WellFormedL]
  · rw [hs]
    refine ⟨fun w v w' h => ?_, fun σ v k h => (PowerTwo.toAnd s σ v k h).1⟩
    have h : s.precommit w = .ok (v, w') := h
    unfold PowerTwo.precommit at h
    rw [pm_getStore_bind, pm_liftE_bind_iff] at h
    obtain ⟨_, _, h⟩ := h
    rw [pm_liftE_bind_iff] at h
    obtain ⟨_, _, h⟩ := h
    obtain ⟨u, w1, hu, h⟩ := pm_bind.mp h
    rw [pm_getStore_bind, pm_liftE_bind_iff] at h
    obtain ⟨_, _, h⟩ := h
    rw [pm_liftE_bind_iff] at h
    obtain ⟨_, _, h⟩ := h
    rw [pm_liftE_bind_iff] at h
    obtain ⟨_, _, h⟩ := h
    rw [pm_pure_iff, Prod.mk.injEq] at h
    rw [← h.2]
    exact drawRands_other _ _ _ _ h1 hu
  · rw [hs]
    simp only [List.mem_cons, List.not_mem_nil, or_false, not_or] at h1
    refine ⟨fun w v w' h => ?_, fun σ v k h => ?_⟩
    · have h : s.precommit w = .ok (v, w') := h
      unfold BBS.precommit at h
      cases hsig : s.signature with
      | none => simp only [hsig] at h; exact (raise_ne.mp h).elim
      | some sig =>
        simp only [hsig] at h
        rw [pm_liftE_bind_iff] at h
        obtain ⟨b0, _, h⟩ := h
        obtain ⟨r1, w1, hr1, h⟩ := pm_bind.mp h
        obtain ⟨r2, w2, hr2, h⟩ := pm_bind.mp h
        rw [pm_getStore_bind, pm_setStore_bind, pm_liftE_bind_iff] at h
        obtain ⟨_, _, h⟩ := h
        rw [pm_liftE_bind_iff] at h
        obtain ⟨_, _, h⟩ := h
        rw [pm_liftE_bind_iff] at h
        obtain ⟨_, _, h⟩ := h
        rw [pm_liftE_bind_iff] at h
        obtain ⟨_, _, h⟩ := h
        rw [pm_pure_iff, Prod.mk.injEq] at h
        rw [← h.2]
        simp only [setValue_other h1.1, setValue_other h1.2.1, setValue_other h1.2.2.1, setValue_other h1.2.2.2,
          (draw_ok hr2).2.2.2, (draw_ok hr1).2.2.2]
    · obtain ⟨a1, a2, g0, g1, g2, gs, ve, vs, vm, l1, l2, hg, hv, hvm, hl, ga1, ga2, rfl⟩ :=
        BBS.construct_inv (s := s) rfl hk h
      simp [BBS.parts, WellFormed, WellFormedL]
      omega

/-- **C99** Conjunctions, nested in any way, of representations and primitives of the library, one of which is `DLNotEqual` where
the two discrete logarithms are the same, `lhs1 = x h`: whatever `prove()` returns, `verify()` does not return `True`. -/
theorem C99_equal_conjunct (env : Env E) (s : NotEqual E) (e : Ext E) (t t' tv : Stmt E) (d : Dict Int) (w w' : World) (msg : String)
    (nizk : NIZK E) (σv : Store) (x : Int) (hno : NoOr t) (hl : ∀ l, HasLeaf l t → NotOwn s.x l) (he : HasLeaf (.ext e) t)
    (hs : e.spec = s.spec) (hgrp : ∀ p ∈ [s.lhs0, s.lhs1, s.h], p.grp = s.g.grp) (hord : s.g.grp.order ≠ 0)
    (hpriv : s.x ≠ s.alpha ∧ s.x ≠ s.beta)
    (hx : (updateSecretValues w.store d).value s.x = some x) (hwrong : s.lhs1.val = x • s.h.val)
    (h : prove (LeafProver E) env t d msg w = .ok ((nizk, t'), w')) (hf : VerifierFor σv tv t) :
    verify env σv tv nizk msg ≠ .ok true := by
  have hh : s.lhs1.grp = s.h.grp := by rw [hgrp s.lhs1 (by simp), hgrp s.h (by simp)]
  refine conj_invalid (I := fun σ => σ.value s.x = some x) (fun σ hσ => ?_) hx hno
    (fun e' he' => ⟨fun w v w' hI hp => ?_, (notOwn_steady (hl _ he')).2⟩) e he (fun w v w' hI hp => ?_) h hf
  · by_cases hd : s.x ∈ d.map Prod.fst
    · rw [(updateSecretValues_value d σ w.store _).1 hd, hx]
    · rw [(updateSecretValues_value d σ w.store _).2 hd, hσ]
  · show w'.store.value s.x = some x
    rw [(notOwn_steady (hl _ he')).1 w v w' hp]; exact hI
  · rw [hs] at hp ⊢
    have hp : s.precommit w = _ := hp
    rw [NotEqual.precommit_of hh hpriv hord hI] at hp
    injection hp with hp
    rw [Prod.mk.injEq] at hp
    refine ⟨by rw [← hp.1]; simp, fun hval => ?_⟩
    have hval : s.validate v = .ok () := hval
    rw [← hp.1] at hval
    simp [NotEqual.validate, NotEqual.blinded, hwrong, Grp.inf, hgrp s.h (by simp)] at hval

/-- `6 = x0·3` and, in a conjunction of its own, an inequality about `x2` and a range proof of `x1` with the randomizer `x2`. -/
abbrev exThreeParts (ne : NotEqual (ZMod 7)) (prover : Bool) : Stmt (ZMod 7) :=
  .and false [.leaf (.dlrep ⟨Ex.P 6, [Ex.P 3], [0], [], false⟩),
    .and false [ne.stmt, ({ exThree with isProver := prover } : PowerTwo (ZMod 7)).stmt]]

/-- The inequality `4 = x·1`, `6 ≠ x·3`, which holds for `x = 4`. -/
abbrev exUnequalTwo : NotEqual (ZMod 7) := ⟨Ex.P 4, Ex.P 1, Ex.P 6, Ex.P 3, Ex.P 1, 2, 3, 4, true⟩

/-- The false inequality `4 = x·1`, `5 ≠ x·3` for `x = 4`. -/
abbrev exEqualTwo : NotEqual (ZMod 7) := { exUnequalTwo with lhs1 := Ex.P 5 }

private theorem exThreeParts_noOr (ne : NotEqual (ZMod 7)) (b : Bool) : NoOr (exThreeParts ne b) := by
  refine .all _ _ fun t ht => ?_
  simp only [List.mem_cons, List.not_mem_nil, or_false] at ht
  rcases ht with rfl | rfl
  · exact .leaf _
  · refine .all _ _ fun t ht => ?_
    simp only [List.mem_cons, List.not_mem_nil, or_false] at ht
    rcases ht with rfl | rfl <;> exact .leaf _

private theorem exThreeParts_leaves {ne : NotEqual (ZMod 7)} {b : Bool} {l : Leaf (ZMod 7)} (h : HasLeaf l (exThreeParts ne b)) :
    l = .dlrep ⟨Ex.P 6, [Ex.P 3], [0], [], false⟩ ∨ l = .ext ⟨ne.spec, false, .none, none, none⟩ ∨
      l = .ext ⟨({ exThree with isProver := b } : PowerTwo (ZMod 7)).spec, false, .none, none, none⟩ := by
  cases h with
  | all _ _ t ht h =>
    simp only [List.mem_cons, List.not_mem_nil, or_false] at ht
    rcases ht with rfl | rfl
    · cases h; exact .inl rfl
    · cases h with
      | all _ _ t ht h =>
        simp only [List.mem_cons, List.not_mem_nil, or_false] at ht
        rcases ht with rfl | rfl <;> cases h
        · exact .inr (.inl rfl)
        · exact .inr (.inr rfl)

private theorem exThreeParts_notOwn {ne : NotEqual (ZMod 7)} {b : Bool} (h3 : ne.alpha = 3) (h4 : ne.beta = 4) {l : Leaf (ZMod 7)}
    (h : HasLeaf l (exThreeParts ne b)) : NotOwn 1 l ∧ NotOwn 2 l := by
  rcases exThreeParts_leaves h with rfl | rfl | rfl
  · exact ⟨trivial, trivial⟩
  · exact ⟨.inl ⟨ne, rfl, by rw [h3]; decide, by rw [h4]; decide⟩, .inl ⟨ne, rfl, by rw [h3]; decide, by rw [h4]; decide⟩⟩
  · exact ⟨.inr (.inl ⟨_, rfl, show (1 : Nat) ∉ [5, 6] by decide⟩), .inr (.inl ⟨_, rfl, show (2 : Nat) ∉ [5, 6] by decide⟩)⟩

private theorem exThreeParts_for (ne : NotEqual (ZMod 7)) : VerifierFor exNoValues (exThreeParts ne false) (exThreeParts ne true) := by
  refine .all _ _ _ _ rfl fun i t u ht hu => ?_
  match i, ht, hu with
  | 0, ht, hu => cases ht; cases hu; exact .leaf _ _ ⟨rfl, rfl, rfl⟩
  | 1, ht, hu =>
    cases ht; cases hu
    refine .all _ _ _ _ rfl fun i t u ht hu => ?_
    match i, ht, hu with
    | 0, ht, hu => cases ht; cases hu; exact NotEqual.verifierFor _ _ _ _ _ _ _ _ _
    | 1, ht, hu =>
      cases ht; cases hu
      exact .leaf _ _ (PowerTwo.leafFor (s := { exThree with isProver := true }) (s' := { exThree with isProver := false })
        rfl rfl rfl rfl _ (by decide) _ _ rfl rfl)

/-- The hypotheses are met by a conjunction with a true range proof; the verifier raises the exception of `validate()`. -/
example : NoOr (exThreeParts exEqualTwo true) ∧ (∀ l, HasLeaf l (exThreeParts exEqualTwo true) → NotOwn exEqualTwo.x l) ∧
    HasLeaf (.ext ⟨exEqualTwo.spec, false, .none, none, none⟩) (exThreeParts exEqualTwo true) ∧
    (∀ p ∈ [exEqualTwo.lhs0, exEqualTwo.lhs1, exEqualTwo.h], p.grp = exEqualTwo.g.grp) ∧ exEqualTwo.g.grp.order ≠ 0 ∧
    (exEqualTwo.x ≠ exEqualTwo.alpha ∧ exEqualTwo.x ≠ exEqualTwo.beta) ∧
    (updateSecretValues exLibStore [(0, 2), (1, 3)]).value exEqualTwo.x = some 4 ∧ exEqualTwo.lhs1.val = (4 : Int) • exEqualTwo.h.val ∧
    VerifierFor exNoValues (exThreeParts exEqualTwo false) (exThreeParts exEqualTwo true) ∧
    Ex.proveVerify exHash (exThreeParts exEqualTwo true) (exThreeParts exEqualTwo false) [(0, 2), (1, 3)] ⟨exLibStore, fun i => 3 * i + 1⟩ exNoValues =
      .error .validation := by
  refine ⟨exThreeParts_noOr _ _, fun l hl => (exThreeParts_notOwn rfl rfl hl).2,
    .all _ _ _ (List.mem_cons_of_mem _ (List.mem_singleton.mpr rfl)) (.all _ _ _ List.mem_cons_self .leaf), by decide, by decide, by decide, by decide, by decide,
    exThreeParts_for _, ?_⟩
  decide +kernel

/-- **C99** The same with a range proof `PowerTwoRangeStmt` the values of which do not open the commitment. -/
theorem C99_range_conjunct (env : Env E) (s : PowerTwo E) (e : Ext E) (t t' tv : Stmt E) (d : Dict Int) (w w' : World) (msg : String)
    (nizk : NIZK E) (σv : Store) (x r : Int) (hno : NoOr t) (hl : ∀ l, HasLeaf l t → NotOwn s.x l ∧ NotOwn s.r l)
    (he : HasLeaf (.ext e) t) (hs : e.spec = s.spec) (hp : s.isProver = true) (hh : s.h.grp = s.g.grp)
    (hord : s.g.grp.order ≠ 0) (htor : (s.g.grp.order : Int) • s.h.val = 0) (hnd : s.rands.Nodup)
    (hr : s.r ∉ s.rands) (hx : (updateSecretValues w.store d).value s.x = some x)
    (hrv : (updateSecretValues w.store d).value s.r = some r) (hwrong : s.com.val ≠ x • s.g.val + r • s.h.val)
    (h : prove (LeafProver E) env t d msg w = .ok ((nizk, t'), w')) (hf : VerifierFor σv tv t) :
    verify env σv tv nizk msg ≠ .ok true := by
  have hup : ∀ (y : Sec) (n : Int) (σ : Store), (updateSecretValues w.store d).value y = some n → σ.value y = some n →
      (updateSecretValues σ d).value y = some n := by
    intro y n σ h1 h2
    by_cases hd : y ∈ d.map Prod.fst
    · rw [(updateSecretValues_value d σ w.store _).1 hd, h1]
    · rw [(updateSecretValues_value d σ w.store _).2 hd, h2]
  refine conj_invalid (I := fun σ => σ.value s.x = some x ∧ σ.value s.r = some r)
    (fun σ hσ => ⟨hup _ _ _ hx hσ.1, hup _ _ _ hrv hσ.2⟩) ⟨hx, hrv⟩ hno
    (fun e' he' => ⟨fun w v w' hI hp => ?_, (notOwn_steady (hl _ he').1).2⟩) e he (fun w v w' hI hpre => ?_) h hf
  · show w'.store.value s.x = some x ∧ w'.store.value s.r = some r
    rw [(notOwn_steady (hl _ he').1).1 w v w' hp, (notOwn_steady (hl _ he').2).1 w v w' hp]
    exact hI
  · rw [hs] at hpre ⊢
    have hpre : s.precommit w = _ := hpre
    exact PowerTwo.precommit_wrong hp hh hord htor hnd hr hI.1 hI.2 hpre hwrong

/-- The hypotheses are met by a conjunction with a true inequality and `x1 = 2` in place of 3. -/
example : NoOr (exThreeParts exUnequalTwo true) ∧
    (∀ l, HasLeaf l (exThreeParts exUnequalTwo true) → NotOwn exThree.x l ∧ NotOwn exThree.r l) ∧
    HasLeaf (.ext ⟨exThree.spec, false, .none, none, none⟩) (exThreeParts exUnequalTwo true) ∧
    (updateSecretValues exLibStore [(0, 2), (1, 2)]).value exThree.x = some 2 ∧
    (updateSecretValues exLibStore [(0, 2), (1, 2)]).value exThree.r = some 4 ∧
    exThree.com.val ≠ (2 : Int) • exThree.g.val + (4 : Int) • exThree.h.val ∧
    VerifierFor exNoValues (exThreeParts exUnequalTwo false) (exThreeParts exUnequalTwo true) ∧
    Ex.proveVerify exHash (exThreeParts exUnequalTwo true) (exThreeParts exUnequalTwo false) [(0, 2), (1, 2)] ⟨exLibStore, fun i => 3 * i + 1⟩ exNoValues =
      .error .validation := by
  refine ⟨exThreeParts_noOr _ _, fun l hl => exThreeParts_notOwn rfl rfl hl,
    .all _ _ _ (List.mem_cons_of_mem _ (List.mem_singleton.mpr rfl)) (.all _ _ _ (List.mem_cons_of_mem _ (List.mem_singleton.mpr rfl)) .leaf), by decide, by decide, by decide,
    exThreeParts_for _, ?_⟩
  decide +kernel

end Zksk.Props
