import Verif.Lemmas.Progress2

/-! Representations proved with arbitrary values. -/

set_option linter.unusedSectionVars false

namespace Zksk

open Spec

variable {E : Type} [AddCommGroup E] [DecidableEq E]

theorem smul_list_sum (n : Int) (l : List E) : n • l.sum = (l.map (n • ·)).sum := by
  induction l with
  | nil => simp
  | cons a l ih => simp [smul_add, ih]

/-- What the values `X` of the secrets make of the right-hand side. -/
def rhsVal (σ : Store) (s : DLRep E) (X : Key → Int) : E :=
  (List.zipWith (fun x b => X (σ.key x) • b.val) s.secretVars s.bases).sum

/-- The same prover for the left-hand side that its values give. -/
def fixLhs (σ : Store) (X : Key → Int) (p : DLRepProver E) : DLRepProver E :=
  { p with stmt := { p.stmt with lhs := ⟨p.stmt.lhs.grp, rhsVal σ p.stmt X⟩ } }

/-- Commitment and responses do not depend on the left-hand side, and verification is off by a
multiple of the challenge. -/
theorem commit_any (p : DLRepProver E) {σ : Store} {X : Key → Int}
    (hvals : ∀ x ∈ p.stmt.secretVars, Dict.get? σ p.secretValues x = some (X (σ.key x)))
    (hgrp : ∀ b ∈ p.stmt.bases, b.grp = p.stmt.lhs.grp) (htor : Torsion (.leaf p.stmt))
    (hwf : WellFormed (.leaf p.stmt : Core E)) {w w' : World} {d : Option (Dict Int)} {com : Val E}
    {p' : DLRepProver E} (hu : ∀ d0, d = some d0 → d0.Uniq σ) (hw : w.store = σ)
    (h : DLRepProver.internalCommit p d w = .ok ((com, p'), w')) :
    w'.store = σ ∧ p'.stmt = p.stmt ∧ ∃ v : E, com = .pt ⟨p.stmt.lhs.grp, v⟩ ∧
      ∀ (c : Int) (w : World), w.store = σ → ∃ r w', DLRepProver.computeResponse p' c w = .ok (r, w') ∧
        w'.store = σ ∧ (∃ ρ, Agree σ (.leaf p.stmt) r ρ) ∧
        Eqns (.leaf p.stmt) c r
          (.pt ⟨p.stmt.lhs.grp, v + c • (rhsVal σ p.stmt X - p.stmt.lhs.val)⟩) := by
  have hq : HonestRep σ (fixLhs σ X p) X := ⟨hvals, .rep _ _ hgrp rfl, htor⟩
  have hi : DLRepProver.internalCommit (fixLhs σ X p) d w = .ok ((com, fixLhs σ X p'), w') ∧
      p'.stmt = p.stmt := by
    unfold DLRepProver.internalCommit at h ⊢
    obtain ⟨d', w1, h1, h⟩ := pm_bind.mp h
    rw [pm_getStore_bind, pm_liftE_bind_iff] at h
    obtain ⟨ks, hks, h⟩ := h
    obtain ⟨cm, hcm, h⟩ := pm_liftE_bind_iff.mp h
    rw [pm_pure_iff, Prod.mk.injEq, Prod.mk.injEq] at h
    obtain ⟨⟨hcom, hp'⟩, hw'⟩ := h
    refine ⟨?_, by rw [← hp']⟩
    have h1' : DLRep.updateRandomizers (fixLhs σ X p).stmt d w = .ok (d', w1) := h1
    have hks' : DLRep.lookupAll w1.store d' (fixLhs σ X p).stmt.secretVars = .ok ks := hks
    have hcm' : DLRepProver.commitWith (fixLhs σ X p).stmt ks = .ok cm := hcm
    rw [pm_bind_eq h1', pm_getStore_bind, hks', pm_liftE_bind, hcm', pm_liftE_bind, ← hcom, ← hw', ← hp']
    rfl
  obtain ⟨e1, e2, ⟨q, hq'⟩, ρ, _, e3⟩ := commit_dlrep (fixLhs σ X p) hq hwf hu hw hi.1
  refine ⟨e1, hi.2, ?_⟩
  have hresp : ∀ c w, DLRepProver.computeResponse (fixLhs σ X p') c w =
      DLRepProver.computeResponse p' c w := fun c w => rfl
  obtain ⟨r0, w0, _, _, f3, _⟩ := e3 q hq' 0 w hw
  obtain ⟨v, rfl⟩ : ∃ v : E, com = .pt ⟨p.stmt.lhs.grp, v⟩ := by
    cases f3 with
    | rep _ _ _ vs ws h1 h2 h3 h4 => exact ⟨_, rfl⟩
  refine ⟨v, rfl, fun c w1 hw1 => ?_⟩
  obtain ⟨r, w2, g1, g2, g3, g4⟩ := e3 q hq' c w1 hw1
  rw [hresp] at g1
  refine ⟨r, w2, g1, g2, ?_, ?_⟩
  · cases g4 with
    | rep _ _ _ h => exact ⟨fun κ => .int ((X κ * c + ρ κ) % (q κ : Int)), .rep _ _ _ h⟩
  · have hv : ∃ (vs : List (Val E)) (ws : List Int), r.elems = .ok vs ∧
        (p.stmt.lhs.grp.strict = true → vs.length = p.stmt.bases.length) ∧
        vs.take p.stmt.bases.length = ws.map .int ∧
        (∀ b ∈ p.stmt.bases.take ws.length, b.grp = p.stmt.lhs.grp) ∧
        v = (List.zipWith (fun w b => w • b.val) ws p.stmt.bases).sum - c • rhsVal σ p.stmt X := by
      generalize hgen : (Val.pt ⟨p.stmt.lhs.grp, v⟩ : Val E) = com at g3
      cases g3 with
      | rep _ _ _ vs ws h1 h2 h3 h4 =>
        injection hgen with hgen
        injection hgen with _ hgen
        exact ⟨vs, ws, h1, h2, h3, h4, hgen⟩
    obtain ⟨vs, ws, h1, h2, h3, h4, rfl⟩ := hv
    have := Eqns.rep p.stmt c r vs ws h1 h2 h3 h4
    convert this using 3
    rw [smul_sub]; abel

end Zksk
