import Verif.Lemmas.Hvzk
import Verif.Lemmas.Again

/-! Two provers with different values of the secrets, and the relation between `prove()` and runs of the
interactive protocol. -/

set_option linter.unusedSectionVars false

namespace Zksk

open Spec

variable {E : Type} [AddCommGroup E] [DecidableEq E]

theorem samePattern_refl (l : List String) : SamePattern l l := by
  refine ⟨rfl, ?_⟩
  intro i j a b a' b' h1 h2 h3 h4
  rw [h1] at h3; rw [h2] at h4; cases h3; cases h4
  exact Iff.rfl

theorem seesSame_refl (σ : Store) (vs : List Sec) : SeesSame σ σ vs :=
  ⟨samePattern_refl _, fun _ _ _ _ => Iff.rfl⟩

/-- Runs of two provers whose random numbers are related by the difference of their secrets. -/
theorem two_runs {t : Core E} (hs : Solid t) (ht : Torsion t) (hf : OrFree t) {w₁ w₂ : World} {d₁ d₂ : Dict Int}
    {X₁ X₂ : Key → Int} (hd₁ : d₁.Uniq (heapFor w₁.store d₁ t)) (hd₂ : d₂.Uniq (heapFor w₂.store d₂ t))
    (hX₁ : Satisfied (heapFor w₁.store d₁ t) d₁ X₁ t) (hX₂ : Satisfied (heapFor w₂.store d₂ t) d₂ X₂ t)
    (hc₁ : Composable (heapFor w₁.store d₁ t) t) (hc₂ : Composable (heapFor w₂.store d₂ t) t)
    (hsee : SeesSame (heapFor w₁.store d₁ t) (heapFor w₂.store d₂ t) (secrets t)) (env : Env E) (c : Int)
    (hpos : ∀ e ∈ table (heapFor w₁.store d₁ t) t, e.2 ≠ 0)
    (hr : ∀ (j : Nat) (e : Sec × Nat), (table (heapFor w₁.store d₁ t) t)[j]? = some e →
      ((w₁.rng j : Int) + X₁ ((heapFor w₁.store d₁ t).key e.1) * c) % (e.2 : Int) =
        ((w₂.rng j : Int) + X₂ ((heapFor w₂.store d₂ t).key e.1) * c) % (e.2 : Int)) :
    ∃ T, honestRun env t d₁ c w₁ = .ok ((.none, T), ⟨heapFor w₁.store d₁ t,
        fun i => w₁.rng (i + (table (heapFor w₁.store d₁ t) t).length)⟩) ∧
      honestRun env t d₂ c w₂ = .ok ((.none, T), ⟨heapFor w₂.store d₂ t,
        fun i => w₂.rng (i + (table (heapFor w₁.store d₁ t) t).length)⟩) := by
  have htab : table (heapFor w₂.store d₂ t) t = table (heapFor w₁.store d₁ t) t := table_same hsee.2
  let r' : Nat → Nat := fun j => match (table (heapFor w₁.store d₁ t) t)[j]? with
    | some e => (((w₁.rng j : Int) + X₁ ((heapFor w₁.store d₁ t).key e.1) * c) % (e.2 : Int)).toNat
    | none => 0
  have hr' : ∀ (j : Nat) (e : Sec × Nat), (table (heapFor w₁.store d₁ t) t)[j]? = some e →
      ((r' j : Nat) : Int) = ((w₁.rng j : Int) + X₁ ((heapFor w₁.store d₁ t).key e.1) * c) % (e.2 : Int) := by
    intro j e he
    simp only [r', he]
    rw [Int.toNat_of_nonneg (Int.emod_nonneg _ (by exact_mod_cast hpos e (List.mem_of_getElem? he)))]
  obtain ⟨T, h1, h2⟩ := runs_coincide hs ht hd₁ hX₁ hc₁ hf hsee env c r' fun j e he => by
    rw [hr' j e he, Int.emod_emod]
  obtain ⟨T', h3, h4⟩ := runs_coincide hs ht hd₂ hX₂ hc₂ hf (seesSame_refl _ _) env c r' fun j e he => by
    rw [htab] at he
    rw [hr' j e he, Int.emod_emod, hr j e he]
  rw [h2] at h4
  simp only [Except.ok.injEq, Prod.mk.injEq] at h4
  obtain ⟨⟨_, rfl⟩, _⟩ := h4
  rw [htab] at h3
  exact ⟨T, h1, h3⟩

/-- Committing leaves the heap alone. -/
theorem honest_shape {t : Core E} {d : Dict Int} {w : World} {X : Key → Int} (hs : Solid t)
    (ht : Torsion t) (hd : d.Uniq (heapFor w.store d t)) (hX : Satisfied (heapFor w.store d t) d X t)
    (hc : Composable (heapFor w.store d t) t) (hf : OrFree t) :
    ∃ p t' w1 com p' w2 id, (PTree.getProver t d : PM (Option (CoreProver E) × Core E)) w = .ok ((some p, t'), w1) ∧
      PTree.precommit p w1 = .ok ((.none, p), w1) ∧
      PTree.internalCommit p none w1 = .ok ((com, p'), w2) ∧ w2.store = w1.store ∧
      PTree.stmtOf p' = PTree.stmtOf p ∧ Tree.proofId w1.store (PTree.stmtOf p) = .ok id ∧
      Tree.proofId (heapFor w.store d t) t = .ok id := by
  obtain ⟨p, t', w1, h, e0, e1, e2, e3⟩ := getProver_satisfied hs ht hd hX
  obtain ⟨hrng, hfp⟩ := getProver_orFree d t hf _ _ _ _ h
  have hfp := hfp p rfl
  have hg : Good SolidRep (PTree.stmtOf p) := good_blank (good_of_solid t hs) _ e3
  obtain ⟨com, p', w2, hcom, hw2, -⟩ := commit_progress (PL := FitRep w1.store X) (fun q hq => hq.1.1) p
    e1 hg (composable_blank (by rw [e0]; exact hc) _ e3) none w1 rfl (by simp)
  obtain ⟨id, _, hid, _⟩ := Tree.proofId_isOk (σ := w1.store) (skel_core (PTree.stmtOf p))
  refine ⟨p, t', w1, com, p', w2, id, h, precommit_orFree hfp w1, hcom, hw2, commit_stmt p _ _ _ _ _ hcom, hid, ?_⟩
  rw [← hid]
  refine ((Tree.proofId_eq_iff (skel_core _) (skel_core _) (secretVars_core _) (secretVars_core _)).mpr
    ⟨((shape_blank _ _ e3).1).symm, ?_⟩)
  show SamePattern ((secrets t).map _) ((secrets _).map _)
  rw [e0, (shape_blank _ _ e3).2]
  exact samePattern_refl _

/-- `prove()` is the interactive protocol with the hash of the commitment as challenge. -/
theorem prove_honest {t : Core E} {d : Dict Int} {w : World} {X : Key → Int} (hs : Solid t)
    (ht : Torsion t) (hd : d.Uniq (heapFor w.store d t)) (hX : Satisfied (heapFor w.store d t) d X t)
    (hc : Composable (heapFor w.store d t) t) (hf : OrFree t) (env : Env E) (msg : String) :
    ∃ id com u, Tree.proofId (heapFor w.store d t) t = .ok id ∧
      (∀ c v T w', honestRun env t d c w = .ok ((v, T), w') →
        v = .none ∧ T.hash = env.digest id ∧ T.commitment = com ∧ T.challenge = c ∧
        (env.fiatShamir id .none com msg = .ok c → prove (DLRepProver E) env t d msg w =
          .ok ((⟨c, T.responses, .none, T.hash⟩, u), w'))) ∧
      ∀ nizk t' w', prove (DLRepProver E) env t d msg w = .ok ((nizk, t'), w') →
        env.fiatShamir id .none com msg = .ok nizk.challenge := by
  obtain ⟨p, t', w1, com, p', w2, id, h1, h2, h3, h4, h5, h6, h7⟩ := honest_shape hs ht hd hX hc hf
  have hcm : PTree.commit env p w1 = .ok (((env.digest id, com), p'), w2) := by
    unfold PTree.commit
    rw [pm_getStore_bind, h6, pm_liftE_bind, pm_bind_eq h3]
    rfl
  refine ⟨id, com, PTree.stmtOf p', h7, fun c v T w' h => ?_, fun nizk t' w' h => ?_⟩
  · unfold honestRun at h
    rw [pm_bind_eq h1] at h
    simp only at h
    rw [pm_bind_eq h2] at h
    simp only at h
    rw [pm_bind_eq hcm] at h
    simp only at h
    obtain ⟨r, w3, h8, h⟩ := pm_bind.mp h
    simp only [pm_pure_iff, Prod.mk.injEq] at h
    obtain ⟨⟨rfl, rfl⟩, rfl⟩ := h
    refine ⟨rfl, rfl, rfl, rfl, fun hfs => ?_⟩
    unfold prove
    rw [pm_bind_eq h1]
    simp only
    have hn : PTree.getNizkProof env p msg w1 = .ok ((⟨c, r, .none, env.digest id⟩, p'), w3) := by
      unfold PTree.getNizkProof
      rw [pm_bind_eq h2]
      simp only
      rw [pm_bind_eq h3, pm_getStore_bind]
      simp only
      rw [h4, h5, h6, pm_liftE_bind, hfs, pm_liftE_bind, pm_bind_eq h8]
      rfl
    rw [pm_bind_eq hn]
    rfl
  · unfold prove at h
    rw [pm_bind_eq h1] at h
    simp only at h
    obtain ⟨⟨n, p''⟩, w3, hn, h⟩ := pm_bind.mp h
    simp only [pm_pure_iff, Prod.mk.injEq] at h
    obtain ⟨⟨rfl, _⟩, _⟩ := h
    unfold PTree.getNizkProof at hn
    rw [pm_bind_eq h2] at hn
    simp only at hn
    rw [pm_bind_eq h3, pm_getStore_bind] at hn
    simp only at hn
    rw [h4, h5, h6, pm_liftE_bind] at hn
    replace h := hn
    obtain ⟨c, hc, h⟩ := pm_liftE_bind_iff.mp h
    obtain ⟨r, w3, h8, h⟩ := pm_bind.mp h
    simp only [pm_pure_iff, Prod.mk.injEq] at h
    obtain ⟨⟨rfl, _⟩, _⟩ := h
    exact hc

end Zksk
