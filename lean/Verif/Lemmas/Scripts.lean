import Verif.Model.Scripts
import Verif.Lemmas.Progress2
import Verif.Lemmas.CoreComplete
import Verif.Lemmas.Whole

/-! # Running the example scripts -/

set_option linter.unusedSectionVars false

namespace Zksk

variable {E : Type} [AddCommGroup E] [DecidableEq E]

open Spec

/-- The interaction of the scripts accepts, for an honest prover. -/
theorem interact_complete (env : Env E) {t : Core E} {d : Dict Int} {w : World} {X : Key → Int} (hs : Solid t)
    (ht : Torsion t) (hd : d.Uniq (heapFor w.store d t)) (hX : Satisfied (heapFor w.store d t) d X t)
    (hc : Composable (heapFor w.store d t) t) :
    ∃ t1 w', interact env t d w = .ok ((true, t1), w') ∧ w'.store = heapFor w.store d t ∧
      shape t1 = shape t ∧ secrets t1 = secrets t := by
  obtain ⟨p, t', w1, h, e0, e1, e2, e3⟩ := getProver_satisfied hs ht hd hX
  obtain rfl := (getProver_whole d t _ _ _ _ h).2
  rw [← e0] at hc ⊢
  obtain ⟨v, hpre, -⟩ := precommit_progress p e1 w1
  obtain ⟨com, p', w2, hcom, hw2, -⟩ := commit_progress (PL := FitRep w1.store X) (fun q hq => hq.1.1) p e1
    (good_blank (good_of_solid t hs) _ e3) (composable_blank hc _ e3) none w1 rfl (by simp)
  obtain ⟨id, _, hid, _⟩ := Tree.proofId_isOk (σ := w1.store) (skel_core (PTree.stmtOf p))
  obtain ⟨c, w3, hdraw, hw3⟩ := draw_progress (m := 2 ^ challengeLength) (by decide) w2
  obtain ⟨r, w4, i1, i2, i3⟩ := primed_answers (t := PTree.stmtOf p)
    (primed_mono (QL := CorePL X w1.store) (fun q hq => hq.2) e1)
    (honest_mono (QL := CorePL X w1.store) (fun q hq => hq.2) e2) rfl hpre hcom c w3 hw3
  refine ⟨PTree.stmtOf p, w4, ?_, i2, shape_blank _ _ e3⟩
  unfold interact
  rw [pm_bind_eq h]
  simp only [fresh_core]
  have hcm : PTree.commit env p w1 = .ok (((env.digest id, com), p'), w2) := by
    unfold PTree.commit
    rw [pm_getStore_bind, hid, pm_liftE_bind, pm_bind_eq hcom]
    rfl
  rw [pm_bind_eq hcm]
  simp only
  rw [pm_getStore_bind]
  have hch : sendChallenge env w2.store (PTree.stmtOf p) (env.digest id) w2 = .ok (c, w3) := by
    unfold sendChallenge checkStatement
    rw [hw2, hid, bind_ok]
    simp only [ne_eq, not_true_eq_false, if_false]
    rw [pm_liftE_bind, show Tree.gate (PTree.stmtOf p) = .ok () by cases PTree.stmtOf p <;> rfl, pm_liftE_bind]
    exact hdraw
  rw [pm_bind_eq hch, pm_bind_eq i1, pm_getStore_bind, i2, i3, pm_liftE_bind]
  rfl

end Zksk
