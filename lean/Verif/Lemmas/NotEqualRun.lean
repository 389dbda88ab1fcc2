import Verif.Lemmas.Known
import Verif.Lemmas.NotEqual
import Mathlib.Tactic.Module

/-! Honest runs of the inequality of discrete logarithms. -/

set_option linter.unusedSectionVars false

namespace Zksk

open Spec

variable {E : Type} [AddCommGroup E] [DecidableEq E]

/-- What an honest proof of a single extended statement contains. -/
theorem ext_nizk {s : Ext E} {d : Dict Int} {env : Env E} {msg : String} {w w' : World} {nizk : NIZK E}
    {t' : Stmt E} (h : prove (LeafProver E) env (.leaf (.ext s)) d msg w = .ok ((nizk, t'), w')) :
    ∃ w1, s.spec.precommit { w with store := updateSecretValues w.store d } = .ok (nizk.precommitment, w1) ∧
      ∃ s', t' = .leaf (.ext s') ∧ s'.spec = s.spec ∧ s'.precommitment = nizk.precommitment := by
  unfold prove at h
  have hg : (PTree.getProver (.leaf (.ext s)) d : PM (Option (StmtProver E) × Stmt E)) w =
      .ok ((some (.leaf (.ext ⟨s, d, none⟩)), .leaf (.ext s)),
        { w with store := updateSecretValues w.store d }) := rfl
  rw [pm_bind_eq hg] at h
  simp only at h
  obtain ⟨⟨n, p'⟩, w1, h1, h⟩ := pm_bind.mp h
  rw [pm_pure_iff, Prod.mk.injEq, Prod.mk.injEq] at h
  simp only at h
  obtain ⟨⟨rfl, rfl⟩, rfl⟩ := h
  unfold PTree.getNizkProof at h1
  obtain ⟨⟨v, p1⟩, w2, h2, h1⟩ := pm_bind.mp h1
  obtain ⟨⟨com, p2⟩, w3, h3, h1⟩ := pm_bind.mp h1
  simp only at h1
  rw [pm_getStore_bind, pm_liftE_bind_iff] at h1
  obtain ⟨id, _, h1⟩ := h1
  rw [pm_liftE_bind_iff] at h1
  obtain ⟨c, _, h1⟩ := h1
  obtain ⟨r, w4, _, h1⟩ := pm_bind.mp h1
  rw [pm_pure_iff, Prod.mk.injEq, Prod.mk.injEq] at h1
  obtain ⟨⟨rfl, rfl⟩, rfl⟩ := h1
  simp only [PTree.precommit] at h2
  obtain ⟨⟨v', lp⟩, w5, h4, h2⟩ := pm_bind.mp h2
  rw [pm_pure_iff, Prod.mk.injEq, Prod.mk.injEq] at h2
  simp only at h2
  obtain ⟨⟨rfl, rfl⟩, rfl⟩ := h2
  simp only [ProverOps.precommit] at h4
  obtain ⟨⟨v2, ep⟩, w6, h5, h4⟩ := pm_bind.mp h4
  rw [pm_pure_iff, Prod.mk.injEq, Prod.mk.injEq] at h4
  simp only at h4
  obtain ⟨⟨rfl, rfl⟩, rfl⟩ := h4
  unfold ExtProver.precommit at h5
  obtain ⟨v3, w7, h6, h5⟩ := pm_bind.mp h5
  rw [pm_getStore_bind, pm_liftE_bind_iff] at h5
  obtain ⟨s1, h7, h5⟩ := h5
  rw [pm_liftE_bind_iff] at h5
  obtain ⟨t1, _, h5⟩ := h5
  obtain ⟨⟨cp, t2⟩, w8, _, h5⟩ := pm_bind.mp h5
  rw [pm_pure_iff, Prod.mk.injEq, Prod.mk.injEq] at h5
  simp only at h5
  obtain ⟨⟨rfl, rfl⟩, rfl⟩ := h5
  refine ⟨w7, h6, ?_⟩
  unfold Ext.fullConstruct at h7
  obtain ⟨t3, _, h7⟩ := bind_ok_iff.mp h7
  cases h7
  simp only [PTree.internalCommit] at h3
  obtain ⟨⟨v4, lp⟩, w9, h8, h3⟩ := pm_bind.mp h3
  rw [pm_pure_iff, Prod.mk.injEq, Prod.mk.injEq] at h3
  simp only at h3
  obtain ⟨⟨_, rfl⟩, _⟩ := h3
  simp only [ProverOps.internalCommit] at h8
  obtain ⟨⟨v5, ep⟩, w10, h9, h8⟩ := pm_bind.mp h8
  rw [pm_pure_iff, Prod.mk.injEq, Prod.mk.injEq] at h8
  simp only at h8
  obtain ⟨⟨_, rfl⟩, _⟩ := h8
  unfold ExtProver.internalCommit at h9
  simp only at h9
  cases cp with
  | none => exact (raise_ne.mp h9).elim
  | some cp =>
    simp only at h9
    obtain ⟨⟨v6, cp'⟩, w11, _, h9⟩ := pm_bind.mp h9
    rw [pm_pure_iff, Prod.mk.injEq, Prod.mk.injEq] at h9
    simp only at h9
    obtain ⟨⟨_, rfl⟩, _⟩ := h9
    exact ⟨_, rfl, rfl, rfl⟩

namespace NotEqual

/-- The secrets of the statement. -/
def vars (s : NotEqual E) (y : Sec) : Prop := y = s.alpha ∨ y = s.beta ∨ y = s.x

/-- The profile of a single inequality. -/
def profile (s : NotEqual E) : Profile E where
  reads _ y := s.vars y
  writes _ y := y = s.alpha ∨ y = s.beta
  occurs _ y := s.vars y

/-- The constructed statement. -/
def built (s : NotEqual E) (σ : Store) (c : Pt E) : Core E :=
  .and false (.leaf ⟨s.g.grp.inf, [s.g, s.lhs0], [s.alpha, s.beta], knownValues σ [s.alpha, s.beta] [], false⟩ ::
    .leaf ⟨c, [s.h, s.lhs1], [s.alpha, s.beta], knownValues σ [s.alpha, s.beta] [], false⟩ ::
    if s.bind then [.leaf ⟨s.lhs0, [s.g], [s.x], knownValues σ [s.x] [], false⟩] else [])

theorem construct_of {s : NotEqual E} (hg : s.lhs0.grp = s.g.grp) (hh : s.lhs1.grp = s.h.grp) (σ : Store)
    (c : Pt E) : s.construct σ (.pt c) = .ok (s.built σ c) := by
  unfold construct built
  simp only [Val.asPt, bind_ok]
  rw [mkDLRep_of (g := s.g.grp) (by simp) (by simp [hg]), bind_ok,
    mkDLRep_of (g := s.h.grp) (by simp) (by simp [hh]), bind_ok]
  cases s.bind with
  | false => rfl
  | true =>
    simp only [if_true]
    rw [mkDLRep_of (g := s.g.grp) (by simp) (by simp), bind_ok]
    rfl

section
variable {s : NotEqual E} (hgrp : ∀ p ∈ [s.lhs0, s.lhs1, s.h], p.grp = s.g.grp) (hord : s.g.grp.order ≠ 0)
include hgrp hord

theorem built_solid (σ : Store) (c : Pt E) (hc : c.grp = s.g.grp) : Solid (s.built σ c) := by
  simp only [List.mem_cons, List.not_mem_nil, or_false, forall_eq_or_imp, forall_eq] at hgrp
  obtain ⟨g1, g2, g3⟩ := hgrp
  unfold built
  cases s.bind <;> simp [Solid, SolidL, Grp.inf, g1, g2, g3, hc, hord]

theorem built_order (σ : Store) (c : Pt E) : OneOrder s.g.grp.order (s.built σ c) := by
  simp only [List.mem_cons, List.not_mem_nil, or_false, forall_eq_or_imp, forall_eq] at hgrp
  obtain ⟨g1, g2, g3⟩ := hgrp
  intro x b hx
  unfold built at hx
  cases hb : s.bind <;> simp [terms, termsL, hb] at hx <;>
    rcases hx with ⟨_, rfl⟩ | hx <;> simp_all <;> aesop

end

theorem built_secrets (s : NotEqual E) (σ : Store) (c : Pt E) : ∀ x ∈ secrets (s.built σ c), s.vars x := by
  intro x hx
  unfold built at hx
  unfold vars
  cases hb : s.bind <;> simp [secrets, secretsL, hb] at hx <;> tauto

theorem built_known (s : NotEqual E) (σ : Store) (c : Pt E) : ∀ x ∈ knownSecrets (s.built σ c), s.vars x := by
  intro x hx
  have h2 : ∀ y, y ∈ (knownValues σ [s.alpha, s.beta] []).map Prod.fst → s.vars y := by
    intro y hy
    obtain ⟨e, he, rfl⟩ := List.mem_map.mp hy
    rcases knownValues_keys σ _ _ e he with h | h
    · simp only [List.mem_cons, List.not_mem_nil, or_false] at h; unfold vars; tauto
    · simp at h
  have h1 : ∀ y, y ∈ (knownValues σ [s.x] []).map Prod.fst → s.vars y := by
    intro y hy
    obtain ⟨e, he, rfl⟩ := List.mem_map.mp hy
    rcases knownValues_keys σ _ _ e he with h | h
    · simp only [List.mem_cons, List.not_mem_nil, or_false] at h; unfold vars; tauto
    · simp at h
  unfold built at hx
  cases hb : s.bind
  · simp only [knownSecrets, knownSecretsL, hb, Bool.false_eq_true, if_false, List.append_nil,
      List.mem_append] at hx
    exact hx.elim (h2 x) (h2 x)
  · simp only [knownSecrets, knownSecretsL, hb, if_true, List.append_nil, List.mem_append] at hx
    exact hx.elim (h2 x) fun hx => hx.elim (h2 x) (h1 x)

theorem built_orFree (s : NotEqual E) (σ : Store) (c : Pt E) : OrFree (s.built σ c) := by
  unfold built
  refine .all _ _ ?_
  cases s.bind <;> intro t ht <;> simp at ht
  · rcases ht with rfl | rfl <;> exact .rep _
  · rcases ht with rfl | rfl | rfl <;> exact .rep _

theorem built_shape (s : NotEqual E) (σ σ' : Store) (c : Pt E) : shape (s.built σ c) = shape (s.built σ' c) ∧
    secrets (s.built σ c) = secrets (s.built σ' c) := by
  unfold built
  cases s.bind <;> exact ⟨rfl, rfl⟩

theorem built_torsion {s : NotEqual E} (hgrp : ∀ p ∈ [s.lhs0, s.lhs1, s.h], p.grp = s.g.grp)
    (htor : ∀ p ∈ [s.g, s.lhs0, s.h, s.lhs1], (s.g.grp.order : Int) • p.val = 0) (σ : Store) (c : Pt E) :
    Torsion (s.built σ c) := by
  intro x b hx
  have hb : b ∈ [s.g, s.lhs0, s.h, s.lhs1] := by
    unfold built at hx
    cases hb : s.bind <;> simp [terms, termsL, hb] at hx <;> simp <;> tauto
  have hb' : b.grp = s.g.grp := by
    simp only [List.mem_cons, List.not_mem_nil, or_false, forall_eq_or_imp, forall_eq] at hgrp hb
    rcases hb with rfl | rfl | rfl | rfl
    · rfl
    · exact hgrp.1
    · exact hgrp.2.2
    · exact hgrp.2.1
  rw [hb']
  exact htor b hb

/-- The heap after precommitting with a blinder. -/
def after (s : NotEqual E) (σ : Store) (x b : Int) : Store :=
  (σ.setValue s.alpha (x * b % (s.g.grp.order : Int))).setValue s.beta (-b % (s.g.grp.order : Int))

/-- The precommitment for a blinder. -/
def blinded (s : NotEqual E) (x b : Int) : Pt E := ⟨s.h.grp, b • (x • s.h.val - s.lhs1.val)⟩

theorem precommit_of {s : NotEqual E} (hh : s.lhs1.grp = s.h.grp) (hpriv : s.x ≠ s.alpha ∧ s.x ≠ s.beta)
    (hord : s.g.grp.order ≠ 0) {w : World} {x : Int} (hx : w.store.value s.x = some x) :
    s.precommit w = .ok (.pt (s.blinded x ((w.rng 0 % s.g.grp.order : Nat) : Int)),
      ⟨s.after w.store x ((w.rng 0 % s.g.grp.order : Nat) : Int), fun i => w.rng (i + 1)⟩) := by
  unfold precommit
  have hd : draw s.g.grp.order w = .ok (((w.rng 0 % s.g.grp.order : Nat) : Int),
      { w with rng := fun i => w.rng (i + 1) }) := by
    unfold draw; rw [if_neg hord]
  rw [pm_bind_eq hd, pm_getStore_bind]
  simp only [hx]
  rw [pm_setStore_bind, pm_getStore_bind, pm_setStore_bind, pm_getStore_bind]
  have hx' : (s.after w.store x ((w.rng 0 % s.g.grp.order : Nat) : Int)).value s.x = some x := by
    unfold after
    simp only [Store.setValue, if_neg hpriv.1, if_neg hpriv.2, hx]
  unfold after at hx' ⊢
  simp only [hx']
  have hs : (Pt.smul x s.h).sub s.lhs1 = .ok ⟨s.h.grp, x • s.h.val - s.lhs1.val⟩ := by
    simp [Pt.smul, Pt.sub, Pt.add, hh, sub_eq_add_neg]
  rw [hs, pm_liftE_bind]
  rfl

theorem after_value {s : NotEqual E} {σ : Store} {x b : Int} (hx : σ.value s.x = some x) (hab : s.alpha ≠ s.beta)
    (hpriv : s.x ≠ s.alpha ∧ s.x ≠ s.beta) :
    (s.after σ x b).value s.alpha = some (x * b % (s.g.grp.order : Int)) ∧
    (s.after σ x b).value s.beta = some (-b % (s.g.grp.order : Int)) ∧
    (s.after σ x b).value s.x = some x := by
  unfold after
  simp only [Store.setValue, if_neg hab, if_neg hpriv.1, if_neg hpriv.2, hx, if_true, and_self]

theorem after_key {s : NotEqual E} {σ : Store} {x b : Int} {y : Sec} (h : ¬ (y = s.alpha ∨ y = s.beta)) :
    (s.after σ x b).key y = σ.key y := by
  have h1 : y ≠ s.alpha := fun e => h (.inl e)
  have h2 : y ≠ s.beta := fun e => h (.inr e)
  unfold after
  simp only [Store.key, Store.setValue, if_neg h1, if_neg h2]

theorem after_holds {s : NotEqual E} (hgrp : ∀ p ∈ [s.lhs0, s.lhs1, s.h], p.grp = s.g.grp)
    (htor : ∀ p ∈ [s.g, s.lhs0, s.h, s.lhs1], (s.g.grp.order : Int) • p.val = 0) {σ : Store} {x b : Int}
    (hx : σ.value s.x = some x) (hab : s.alpha ≠ s.beta) (hpriv : s.x ≠ s.alpha ∧ s.x ≠ s.beta)
    (h0 : s.lhs0.val = x • s.g.val) {t : Core E}
    (ht : t ∈ [.leaf ⟨s.g.grp.inf, [s.g, s.lhs0], [s.alpha, s.beta],
        knownValues (s.after σ x b) [s.alpha, s.beta] [], false⟩,
      .leaf ⟨s.blinded x b, [s.h, s.lhs1], [s.alpha, s.beta],
        knownValues (s.after σ x b) [s.alpha, s.beta] [], false⟩,
      .leaf ⟨s.lhs0, [s.g], [s.x], knownValues (s.after σ x b) [s.x] [], false⟩]) {d : Dict Int}
    (hd : Told (s.after σ x b) d) :
    Satisfied (s.after σ x b) d valueOf t := by
  obtain ⟨v1, v2, v3⟩ := after_value (b := b) hx hab hpriv
  simp only [List.mem_cons, List.not_mem_nil, or_false, forall_eq_or_imp, forall_eq] at hgrp htor ht
  obtain ⟨t1, t2, t3, t4⟩ := htor
  obtain ⟨g1, g2, g3⟩ := hgrp
  have m1 : ∀ e : E, (s.g.grp.order : Int) • e = 0 → (x * b % (s.g.grp.order : Int)) • e = (x * b) • e :=
    fun e he => smul_eq_of_dvd he ((Int.emod_emod_of_dvd _ dvd_rfl |> Int.emod_eq_emod_iff_emod_sub_eq_zero.mp |>
      Int.dvd_of_emod_eq_zero))
  have m2 : ∀ e : E, (s.g.grp.order : Int) • e = 0 → (-b % (s.g.grp.order : Int)) • e = (-b) • e :=
    fun e he => smul_eq_of_dvd he ((Int.emod_emod_of_dvd _ dvd_rfl |> Int.emod_eq_emod_iff_emod_sub_eq_zero.mp |>
      Int.dvd_of_emod_eq_zero))
  have k1 : valueOf ((s.after σ x b).key s.alpha) = x * b % (s.g.grp.order : Int) := by
    simp [valueOf, Store.key, v1]
  have k2 : valueOf ((s.after σ x b).key s.beta) = -b % (s.g.grp.order : Int) := by
    simp [valueOf, Store.key, v2]
  have k3 : valueOf ((s.after σ x b).key s.x) = x := by simp [valueOf, Store.key, v3]
  rcases ht with rfl | rfl | rfl
  · refine satisfied_rep hd rfl (by simp [v1, v2]) (.rep _ _ (by simp [Grp.inf, g1]) ?_)
    simp only [List.zipWith_cons_cons, List.zipWith_nil_right, List.sum_cons, List.sum_nil, add_zero, k1, k2,
      Grp.inf]
    rw [m1 _ t1, m2 _ t2, h0]
    module
  · refine satisfied_rep hd rfl (by simp [v1, v2]) (.rep _ _ (by simp [blinded, g2, g3]) ?_)
    simp only [List.zipWith_cons_cons, List.zipWith_nil_right, List.sum_cons, List.sum_nil, add_zero, k1, k2,
      m1 _ t3, m2 _ t4, blinded]
    module
  · refine satisfied_rep hd rfl (by simp [v3]) (.rep _ _ (by simp [g1]) ?_)
    simp only [List.zipWith_cons_cons, List.zipWith_nil_right, List.sum_cons, List.sum_nil, add_zero, k3, h0]

theorem after_satisfied {s : NotEqual E} (hgrp : ∀ p ∈ [s.lhs0, s.lhs1, s.h], p.grp = s.g.grp)
    (htor : ∀ p ∈ [s.g, s.lhs0, s.h, s.lhs1], (s.g.grp.order : Int) • p.val = 0) {σ : Store} {x b : Int}
    (hx : σ.value s.x = some x) (hab : s.alpha ≠ s.beta) (hpriv : s.x ≠ s.alpha ∧ s.x ≠ s.beta)
    (h0 : s.lhs0.val = x • s.g.val) {d : Dict Int} (hd : Told (s.after σ x b) d) :
    Satisfied (s.after σ x b) d valueOf (s.built (s.after σ x b) (s.blinded x b)) := by
  unfold built
  refine .all _ fun t ht => after_holds hgrp htor hx hab hpriv h0 ?_ hd
  cases hb : s.bind
  · rw [hb] at ht; simp at ht; simp; tauto
  · rw [hb] at ht; simpa using ht

/-- Precommitments are points. -/
def isPoint (_ : ExtSpec E) (v : Val E) : Prop := ∃ c, v = .pt c

theorem canSimulate' {s : NotEqual E} (hgrp : ∀ p ∈ [s.lhs0, s.lhs1, s.h], p.grp = s.g.grp)
    (hgen : s.gen.grp = s.g.grp) (hord : s.g.grp.order ≠ 0) (F : Profile E)
    (hF : ∀ σ c, ∀ y ∈ secrets (s.built σ c), F.occurs s.spec y) (σ : Store) :
    CanSimulate F s.g.grp.order σ (isPoint s.spec) s.spec := by
  intro w hw
  obtain ⟨k, w', h1, h2⟩ := draw_progress hord w
  refine ⟨.pt (Pt.smul k s.gen), w', s.built σ (Pt.smul k s.gen), ?_, h2.trans hw, ?_, rfl, ?_, ?_, ?_, ⟨_, rfl⟩⟩
  · show s.simPrecommit w = _
    unfold simPrecommit
    rw [pm_bind_eq h1]; rfl
  · exact construct_of (hgrp _ (by simp)) (by rw [hgrp s.lhs1 (by simp), hgrp s.h (by simp)]) σ _
  · exact built_solid hgrp hord σ _ hgen
  · exact built_order hgrp hord σ _
  · exact fun x hx => hF _ _ x hx

theorem canProve' {s : NotEqual E} (hgrp : ∀ p ∈ [s.lhs0, s.lhs1, s.h], p.grp = s.g.grp)
    (hord : s.g.grp.order ≠ 0) (htor : ∀ p ∈ [s.g, s.lhs0, s.h, s.lhs1], (s.g.grp.order : Int) • p.val = 0)
    (hab : s.alpha ≠ s.beta) (hpriv : s.x ≠ s.alpha ∧ s.x ≠ s.beta) {σ : Store} {x : Int}
    (hx : σ.value s.x = some x) (h0 : s.lhs0.val = x • s.g.val) (F : Profile E)
    (hF : ∀ σ c, ∀ y ∈ secrets (s.built σ c), F.occurs s.spec y) (hR : ∀ y, s.vars y → F.reads s.spec y)
    (hW : ∀ y, y = s.alpha ∨ y = s.beta → F.writes s.spec y) {d : Dict Int} (hd : Told σ d)
    (hda : ∀ e ∈ d, e.1 ≠ s.alpha ∧ e.1 ≠ s.beta) :
    CanProve F s.g.grp.order σ d (isPoint s.spec) s.spec := by
  intro w hw
  have hh : s.lhs1.grp = s.h.grp := by rw [hgrp s.lhs1 (by simp), hgrp s.h (by simp)]
  have hwx : w.store.value s.x = some x := by
    rw [← hx]; exact congrArg Prod.snd (hw s.x (.inl (hR _ (.inr (.inr rfl)))))
  have htold : ∀ b, Told (s.after w.store x b) d := fun b => told_same (told_same hd fun y hy => hw y (.inr hy))
    fun y hy => after_key fun h => by
      obtain ⟨e, he, rfl⟩ := List.mem_map.mp hy
      exact h.elim (hda e he).1 (hda e he).2
  refine ⟨_, _, s.built _ _, precommit_of hh hpriv hord hwx, fun y hy => after_key fun h => hy (hW y h), rfl,
    construct_of (hgrp _ (by simp)) hh _ _, .inr rfl, ?_, ?_, ?_, ?_, ?_, ?_, ?_, ⟨_, rfl⟩⟩
  · exact built_solid hgrp hord _ _ (hgrp s.h (by simp))
  · exact built_torsion hgrp htor _ _
  · exact built_order hgrp hord _ _
  · exact fun x hx => hF _ _ x hx
  · exact fun x hx => hR x (built_known s _ _ x hx)
  · exact after_satisfied hgrp htor hwx hab hpriv h0 (htold _)
  · exact composable_orFree (built_orFree _ _ _) (built_order hgrp hord _ _)

theorem canSimulate {s : NotEqual E} (hgrp : ∀ p ∈ [s.lhs0, s.lhs1, s.h], p.grp = s.g.grp)
    (hgen : s.gen.grp = s.g.grp) (hord : s.g.grp.order ≠ 0) (F : Profile E)
    (hF : ∀ y, s.vars y → F.occurs s.spec y) (σ : Store) :
    CanSimulate F s.g.grp.order σ (isPoint s.spec) s.spec :=
  canSimulate' hgrp hgen hord F (fun σ c y hy => hF y (built_secrets s σ c y hy)) σ

theorem canProve {s : NotEqual E} (hgrp : ∀ p ∈ [s.lhs0, s.lhs1, s.h], p.grp = s.g.grp)
    (hord : s.g.grp.order ≠ 0) (htor : ∀ p ∈ [s.g, s.lhs0, s.h, s.lhs1], (s.g.grp.order : Int) • p.val = 0)
    (hab : s.alpha ≠ s.beta) (hpriv : s.x ≠ s.alpha ∧ s.x ≠ s.beta) {σ : Store} {x : Int}
    (hx : σ.value s.x = some x) (h0 : s.lhs0.val = x • s.g.val) (F : Profile E)
    (hF : ∀ y, s.vars y → F.occurs s.spec y) (hR : ∀ y, s.vars y → F.reads s.spec y)
    (hW : ∀ y, y = s.alpha ∨ y = s.beta → F.writes s.spec y) {d : Dict Int} (hd : Told σ d)
    (hda : ∀ e ∈ d, e.1 ≠ s.alpha ∧ e.1 ≠ s.beta) :
    CanProve F s.g.grp.order σ d (isPoint s.spec) s.spec :=
  canProve' hgrp hord htor hab hpriv hx h0 F (fun σ c y hy => hF y (built_secrets s σ c y hy)) hR hW hd hda

theorem verifierFor {s : NotEqual E} (σv : Store) (flag : Bool) (v : Val E) (k k' : Option (Core E)) (flag' : Bool)
    (v' : Val E) (l l' : Option (Core E)) : VerifierFor σv (.leaf (.ext ⟨s.spec, flag, v, k, k'⟩))
      (.leaf (.ext ⟨s.spec, flag', v', l, l'⟩)) := by
  refine .leaf _ _ ⟨rfl, rfl, fun σ v k hk => ?_⟩
  have hk' : s.construct σ v = .ok k := hk
  obtain ⟨c, _, _, rfl, g1, g2, _⟩ := construct_inv hk'
  rw [construct_of g1 g2] at hk'
  cases hk'
  exact ⟨_, construct_of g1 g2 σv c, built_shape s σv σ c⟩

end NotEqual
end Zksk
