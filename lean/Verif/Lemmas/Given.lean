import Verif.Lemmas.Progress2
import Verif.Lemmas.ExtCore

/-! Commitments with randomizers given by the caller. -/

set_option linter.unusedSectionVars false

namespace Zksk

open Spec

variable {E : Type} [AddCommGroup E] [DecidableEq E]

/-- A run with given randomizers. -/
theorem given_progress {t : Core E} {d K : Dict Int} {w : World} {X : Key → Int} (hs : Solid t)
    (ht : Torsion t) (hd : d.Uniq (heapFor w.store d t)) (hX : Satisfied (heapFor w.store d t) d X t)
    (hc : Composable (heapFor w.store d t) t) (hK : K.Uniq (heapFor w.store d t)) (env : Env E) :
    ∃ p t' w1 v id com p2 w2, (PTree.getProver t d : PM (Option (CoreProver E) × Core E)) w =
        .ok ((some p, t'), w1) ∧
      PTree.precommit p w1 = .ok ((v, p), w1) ∧ w1.store = heapFor w.store d t ∧
      Tree.proofId w1.store t = .ok id ∧
      PTree.commitGiven env p K w1 = .ok (((env.digest id, com), p2), w2) ∧ w2.store = w1.store ∧
      CommitLaw w1.store X (Tree.blank t) (some K) com (PTree.computeResponse p2) := by
  obtain ⟨p, t', w1, h, e0, e1, e2, e3⟩ := getProver_satisfied hs ht hd hX
  rw [← e0] at hc hK
  obtain ⟨v, hpre, -⟩ := precommit_progress p e1 w1
  have hg : Good SolidRep (PTree.stmtOf p) := good_blank (good_of_solid t hs) _ e3
  have hu : ∀ d0, some K = some d0 → d0.Uniq w1.store := by rintro _ ⟨⟩; exact hK
  obtain ⟨com, p2, w2, hcom, hw2, -⟩ := commit_progress (PL := FitRep w1.store X) (fun q hq => hq.1.1) p e1 hg
    (composable_blank hc _ e3) (some K) w1 rfl hu
  have f1 := primed_mono (QL := CorePL X w1.store) (fun q hq => hq.2) e1
  have f2 := honest_mono (QL := CorePL X w1.store) (fun q hq => hq.2) e2
  obtain ⟨-, g2, -, ⟨k, g4, g5⟩, -⟩ := precommit_law X (corePL_stab X) (precommitLeaf_core X) p p w1 w1 v f1 f2
    (apart_core p) hpre
  obtain ⟨-, -, l3⟩ := commit_law (fun p Y => HonestRep w1.store p X ∧ Y = X) w1.store
    (fun p Y k hp hk hwf w w' d com p' hu hw h => by
      obtain ⟨hp, rfl⟩ := hp
      exact commitLeaf_core w1.store _ p k hp hk hwf w w' d com p' hu hw h) p X k
    (honest_fix (g2 w1.store (Same.refl _ _)) rfl) g4 g5 w1 w2 (some K) com p2 hu rfl hcom
  obtain ⟨id, _, hid, _⟩ := Tree.proofId_isOk (σ := w1.store) (skel_core (PTree.stmtOf p))
  obtain ⟨b1, b2⟩ := shape_blank _ _ e3
  refine ⟨p, t', w1, v, id, com, p2, w2, h, hpre, e0, ?_, ?_, hw2, ?_⟩
  · rw [← hid]
    exact proofId_weaken b1.symm (by rw [b2]; exact seesAs_refl _ _)
  · unfold PTree.commitGiven
    rw [pm_getStore_bind, hid, pm_liftE_bind, pm_bind_eq hcom]
    rfl
  · have := core_blank (PTree.stmtOf p)
    rw [g4] at this
    rw [← e3, ← Option.some.inj this]
    exact l3

theorem occ_secret {t : Core E} {r v : Val E} {x : Sec} (h : Occ t r x v) : x ∈ secrets t := by
  induction h with
  | rep s r i x v hx hr => exact List.mem_of_getElem? hx
  | all sim subs r ri i t x v ht hr _ ih =>
    simp only [secrets]
    exact mem_secretsL.mpr ⟨t, List.mem_of_getElem? ht, ih⟩

theorem solid_secrets : ∀ (t : Core E), Solid t → secrets t ≠ [] := by
  intro t
  induction t using Tree.ind with
  | leaf s =>
    intro h
    have h1 := wf_of_solid h
    simp only [WellFormed] at h1
    simp only [Solid] at h
    intro h2
    simp only [secrets] at h2
    rw [h2] at h1
    exact h.2.1 (List.length_eq_zero_iff.mp h1.symm)
  | and b subs ih =>
    intro h
    cases subs with
    | nil => exact absurd rfl h.1
    | cons t ts => simp only [secrets, secretsL]; simpa using fun h0 => absurd h0 (ih t (by simp) h.2.1)
  | or b subs ih =>
    intro h
    cases subs with
    | nil => exact absurd rfl h.1
    | cons t ts => simp only [secrets, secretsL]; simpa using fun h0 => absurd h0 (ih t (by simp) h.2.1)

theorem update_empty {vs : List Sec} (hv : vs ≠ []) (getR : PM (Dict Int)) :
    Tree.updateRandomizersWith (.ok vs) getR (some []) = getR := by
  funext w
  simp only [Tree.updateRandomizersWith]
  rw [pm_getStore_bind, pm_liftE_bind]
  have : vs.any (fun s => !(Dict.has w.store ([] : Dict Int) s)) = true := by
    cases vs with
    | nil => exact absurd rfl hv
    | cons a l => simp [Dict.has, Dict.get?]
  rw [if_pos this]
  cases h : getR w with
  | error e => simp [bind, StateT.bind, Except.bind, h]
  | ok r => rw [pm_bind_eq (a := r.1) (w1 := r.2) h]; rfl

theorem commit_empty (p : CoreProver E) (hs : Solid (PTree.stmtOf p)) :
    PTree.internalCommit p (some []) = PTree.internalCommit p none := by
  cases p with
  | leaf q =>
    have e : DLRep.updateRandomizers q.stmt (some []) = DLRep.updateRandomizers q.stmt none :=
      update_empty (solid_secrets _ hs) _
    simp only [PTree.internalCommit, ProverOps.internalCommit, DLRepProver.internalCommit, e]
  | and b subs =>
    have e : Tree.updateRandomizers (Tree.and b (PTree.stmtOfL subs)) (some []) =
        Tree.updateRandomizers (Tree.and b (PTree.stmtOfL subs)) none := by
      unfold Tree.updateRandomizers
      rw [secretVars_core]
      exact update_empty (solid_secrets _ hs) _
    simp only [PTree.internalCommit, e]
  | or b i ts q sims => simp only [PTree.internalCommit]

end Zksk
