import Verif.Lemmas.NotEqualRun
import Verif.Props.ExtComplete
import Verif.Props.NotEqual

/-! # C34: completeness of the inequality of discrete logarithms -/

set_option linter.unusedSectionVars false

namespace Zksk.Props

open Spec

variable {E : Type} [AddCommGroup E] [DecidableEq E]

theorem ready_ne (s : NotEqual E) (d : Dict Int) (w : World) (x : Int) (hord : s.g.grp.order ≠ 0)
    (hgrp : ∀ p ∈ [s.lhs0, s.lhs1, s.h, s.gen], p.grp = s.g.grp)
    (htor : ∀ p ∈ [s.g, s.lhs0, s.h, s.lhs1], (s.g.grp.order : Int) • p.val = 0)
    (hpriv : [s.x, s.alpha, s.beta].Nodup) (hx : (updateSecretValues w.store d).value s.x = some x)
    (h0 : s.lhs0.val = x • s.g.val) (hd : d.Uniq (updateSecretValues w.store d))
    (hda : ∀ e ∈ d, e.1 ≠ s.alpha ∧ e.1 ≠ s.beta) :
    Spec.Ready s.profile s.g.grp.order (updateSecretValues w.store d) d NotEqual.isPoint s.stmt := by
  have hgrp' : ∀ p ∈ [s.lhs0, s.lhs1, s.h], p.grp = s.g.grp := by
    intro p hp; apply hgrp; simp at hp ⊢; tauto
  simp only [List.nodup_cons, List.mem_cons, List.not_mem_nil, or_false, not_or, not_false_eq_true,
    List.nodup_nil, and_true] at hpriv
  obtain ⟨⟨h1, h2⟩, h3⟩ := hpriv
  refine ⟨.leaf _ ⟨.inr ?_, fun y hy => hy⟩, .leaf _ ?_, .leaf _ ?_, .leaf _, .leaf _, .leaf _, ?_, hd, ?_⟩
  · exact NotEqual.canSimulate hgrp' (hgrp _ (by simp)) hord _ (fun y hy => hy) _
  · exact NotEqual.canProve hgrp' hord htor h3 ⟨h1, h2⟩ hx h0 _ (fun y hy => hy) (fun y hy => hy)
      (fun y hy => hy) (told_of_uniq hd) hda
  · rintro y _ (⟨_, _, hy⟩)
    exact hy
  · rintro e he (⟨_, _, hy⟩)
    exact hy.elim (hda e he).1 (hda e he).2
  · rintro sp s' ⟨c, hc⟩; cases hc

theorem named_ne {s : NotEqual E} {name : Sec → String}
    (h : ([s.x, s.alpha, s.beta].map name).Nodup) : Named s.profile name s.stmt := by
  simp only [List.map_cons, List.map_nil, List.nodup_cons, List.mem_cons, List.not_mem_nil, or_false, not_or,
    not_false_eq_true, List.nodup_nil, and_true] at h
  obtain ⟨⟨h1, h2⟩, h3⟩ := h
  rintro y z (⟨_, _, hy⟩) (⟨_, _, hz⟩) e
  simp only [NotEqual.profile, NotEqual.vars, leafOccurs] at hy hz
  rcases hy with rfl | rfl | rfl <;> rcases hz with rfl | rfl | rfl <;>
    first | rfl | exact (h1 e).elim | exact (h2 e).elim | exact (h3 e).elim | exact (h1 e.symm).elim |
      exact (h2 e.symm).elim | exact (h3 e.symm).elim

/-- **C34** Let all points be from one group of prime order `q`, and `H0 = x h0`, where `x` is the value the
secret has after the explicit values `d` were stored.  The secrets used internally are not used otherwise.  Then
`prove()` succeeds; the precommitment is `b (x h1 - H1)` where `b` is the first random draw below `q`; and for
every verifier that tells the secrets apart by name:

* if `H1 ≠ x h1` and `b ≠ 0`, `verify()` is `True`;
* if `H1 = x h1`, or `b = 0`, it raises `ValidationError`. -/
theorem C34_complete (env : Env E) (s : NotEqual E) (d : Dict Int) (w : World) (msg : String) (x : Int)
    (hq : s.g.grp.order.Prime) (hgrp : ∀ p ∈ [s.lhs0, s.lhs1, s.h, s.gen], p.grp = s.g.grp)
    (htor : ∀ p ∈ [s.g, s.lhs0, s.h, s.lhs1], (s.g.grp.order : Int) • p.val = 0)
    (hpriv : [s.x, s.alpha, s.beta].Nodup) (hx : (updateSecretValues w.store d).value s.x = some x)
    (h0 : s.lhs0.val = x • s.g.val) (hd : d.Uniq (updateSecretValues w.store d))
    (hda : ∀ e ∈ d, e.1 ≠ s.alpha ∧ e.1 ≠ s.beta)
    (hnames : ([s.x, s.alpha, s.beta].map w.store.name).Nodup) :
    ∃ nizk t' w', prove (LeafProver E) env s.stmt d msg w = .ok ((nizk, t'), w') ∧
      nizk.precommitment =
        .pt ⟨s.g.grp, ((w.rng 0 % s.g.grp.order : Nat) : Int) • (x • s.h.val - s.lhs1.val)⟩ ∧
      ∀ σv : Store, ([s.x, s.alpha, s.beta].map σv.name).Nodup →
        (s.lhs1.val ≠ x • s.h.val → w.rng 0 % s.g.grp.order ≠ 0 →
          verify env σv s.stmt nizk msg = .ok true) ∧
        (s.lhs1.val = x • s.h.val ∨ w.rng 0 % s.g.grp.order = 0 →
          verify env σv s.stmt nizk msg = .error .validation) := by
  have hord := hq.ne_zero
  obtain ⟨nizk, t', w', h1, _, _, _, h2⟩ := C54_proofs_accepted s.profile s.g.grp.order NotEqual.isPoint env s.stmt
    d w msg (by intro s'; unfold NotEqual.stmt; simp) (ready_ne s d w x hord hgrp htor hpriv hx h0 hd hda)
  obtain ⟨w1, g1, s', rfl, g2, g3⟩ := ext_nizk h1
  simp only [List.nodup_cons, List.mem_cons, List.not_mem_nil, or_false, not_or] at hpriv
  have hh : s.lhs1.grp = s.h.grp := by rw [hgrp s.lhs1 (by simp), hgrp s.h (by simp)]
  have g4 := NotEqual.precommit_of (s := s) (w := { w with store := updateSecretValues w.store d }) hh hpriv.1 hord hx
  have g1' : s.precommit { w with store := updateSecretValues w.store d } = .ok (nizk.precommitment, w1) := g1
  rw [g1', Except.ok.injEq, Prod.mk.injEq] at g4
  obtain ⟨g4, _⟩ := g4
  have hpre : nizk.precommitment =
      .pt ⟨s.g.grp, ((w.rng 0 % s.g.grp.order : Nat) : Int) • (x • s.h.val - s.lhs1.val)⟩ := by
    rw [g4, NotEqual.blinded, hgrp s.h (by simp)]
  refine ⟨nizk, _, w', h1, hpre, fun σv hv => ?_⟩
  obtain ⟨h3, h4⟩ := h2 σv s.stmt (NotEqual.verifierFor σv ..) (named_ne hnames) (named_ne hv)
  refine ⟨fun hne hb => h3 (.leaf _ ?_), fun h => h4 _ ?_⟩
  · show s'.spec.validate s'.precommitment = .ok ()
    rw [g2, g3, hpre]
    show s.validate _ = .ok ()
    unfold NotEqual.validate
    rw [if_neg]
    simp only [Grp.inf, Val.pt.injEq, Pt.mk.injEq, true_and]
    intro hz
    have ht : (s.g.grp.order : Int) • (x • s.h.val - s.lhs1.val) = 0 := by
      rw [smul_sub, smul_comm, htor s.h (by simp), htor s.lhs1 (by simp), smul_zero, sub_zero]
    have := dvd_of_smul_eq_zero hq ht (sub_ne_zero.mpr hne.symm) hz
    rw [Int.natCast_dvd_natCast] at this
    have hlt : w.rng 0 % s.g.grp.order < s.g.grp.order := Nat.mod_lt _ hq.pos
    exact hb (Nat.eq_zero_of_dvd_of_lt this hlt)
  · show s'.spec.validate s'.precommitment = .error .validation
    rw [g2, g3, hpre]
    show s.validate _ = .error .validation
    unfold NotEqual.validate
    rw [if_pos]
    simp only [Grp.inf, Val.pt.injEq, Pt.mk.injEq, true_and]
    rcases h with h | h
    · rw [h, sub_self, smul_zero]
    · rw [h]; simp

/-- The hypotheses are met by `exNe` with `x = 2`, with an explicit value for the secret: `2 = 2·1` and
`5 ≠ 2·3` modulo 7. -/
example (bind : Bool) : ∃ (d : Dict Int) (w : World), d ≠ [] ∧
    (exNe bind).g.grp.order.Prime ∧
    (∀ p ∈ [(exNe bind).lhs0, (exNe bind).lhs1, (exNe bind).h, (exNe bind).gen], p.grp = (exNe bind).g.grp) ∧
    (∀ p ∈ [(exNe bind).g, (exNe bind).lhs0, (exNe bind).h, (exNe bind).lhs1],
      ((exNe bind).g.grp.order : Int) • p.val = 0) ∧
    [(exNe bind).x, (exNe bind).alpha, (exNe bind).beta].Nodup ∧
    (updateSecretValues w.store d).value (exNe bind).x = some 2 ∧
    (exNe bind).lhs0.val = (2 : Int) • (exNe bind).g.val ∧ d.Uniq (updateSecretValues w.store d) ∧
    (∀ e ∈ d, e.1 ≠ (exNe bind).alpha ∧ e.1 ≠ (exNe bind).beta) ∧
    ([(exNe bind).x, (exNe bind).alpha, (exNe bind).beta].map w.store.name).Nodup ∧
    (exNe bind).lhs1.val ≠ (2 : Int) • (exNe bind).h.val ∧ w.rng 0 % (exNe bind).g.grp.order ≠ 0 := by
  refine ⟨[(2, 2)], ⟨⟨exNeStore.name, fun _ => none⟩, fun _ => 3⟩, by simp, (by decide : Nat.Prime 7), ?_, ?_, ?_,
    rfl, ?_, ?_, ?_, ?_, ?_, ?_⟩
  · cases bind <;> decide
  · cases bind <;> decide
  · cases bind <;> decide
  · cases bind <;> decide
  · exact ⟨rfl, trivial⟩
  · cases bind <;> decide
  · cases bind <;> decide
  · cases bind <;> decide
  · cases bind <;> decide

end Zksk.Props
