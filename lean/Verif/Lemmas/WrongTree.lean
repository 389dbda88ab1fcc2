import Verif.Lemmas.Wrong
import Verif.Lemmas.Again
import Verif.SpecWrong
import Mathlib.Data.Int.GCD
import Mathlib.Data.Nat.Prime.Basic

/-! Compositions of representations proved with arbitrary values. -/

set_option linter.unusedSectionVars false

namespace Zksk

open Spec

variable {E : Type} [AddCommGroup E] [DecidableEq E]

/-! ### The left-hand sides do not matter until verification -/

mutual
/-- A statement with all left-hand sides replaced by the neutral element. -/
def era : Core E → Core E
  | .leaf s => .leaf { s with lhs := ⟨s.lhs.grp, 0⟩ }
  | .and b ts => .and b (eraL ts)
  | .or b ts => .or b (eraL ts)
def eraL : List (Core E) → List (Core E)
  | [] => []
  | t :: ts => era t :: eraL ts
end

theorem eraL_eq (ts : List (Core E)) : eraL ts = ts.map era := by
  induction ts with
  | nil => rfl
  | cons t ts ih => simp [eraL, ih]

mutual
theorem era_vars : ∀ t : Core E, Tree.secretVars (era t) = Tree.secretVars t
  | .leaf s => rfl
  | .and b ts => by simp only [era, Tree.secretVars]; exact eraL_vars ts
  | .or b ts => by simp only [era, Tree.secretVars]; exact eraL_vars ts
theorem eraL_vars : ∀ ts : List (Core E), Tree.secretVarsL (eraL ts) = Tree.secretVarsL ts
  | [] => rfl
  | t :: ts => by simp only [eraL, Tree.secretVarsL, era_vars t, eraL_vars ts]
end

mutual
theorem era_bases : ∀ t : Core E, Tree.bases (era t) = Tree.bases t
  | .leaf s => rfl
  | .and b ts => by simp only [era, Tree.bases]; exact eraL_bases ts
  | .or b ts => by simp only [era, Tree.bases]; exact eraL_bases ts
theorem eraL_bases : ∀ ts : List (Core E), Tree.basesL (eraL ts) = Tree.basesL ts
  | [] => rfl
  | t :: ts => by simp only [eraL, Tree.basesL, era_bases t, eraL_bases ts]
end

mutual
theorem era_reoccur (σ : Store) (f : List Sec) : ∀ t : Core E, Tree.reoccur σ f (era t) = Tree.reoccur σ f t
  | .leaf s => rfl
  | .and b ts => by simp only [era, Tree.reoccur]; exact eraL_reoccur σ f ts
  | .or b ts => by simp only [era, Tree.reoccur, eraL_vars]
theorem eraL_reoccur (σ : Store) (f : List Sec) :
    ∀ ts : List (Core E), Tree.reoccurL σ f (eraL ts) = Tree.reoccurL σ f ts
  | [] => rfl
  | t :: ts => by simp only [eraL, Tree.reoccurL, era_reoccur σ f t, eraL_reoccur σ f ts]
end

theorem era_validate (σ : Store) (t : Core E) :
    Tree.validateComposition σ (era t) = Tree.validateComposition σ t := by
  cases t with
  | leaf s => rfl
  | and b ts =>
    simp only [era, Tree.validateComposition, Tree.validateGroupOrders, Tree.bases, Tree.secretVars,
      eraL_bases, eraL_vars, eraL_reoccur]
  | or b ts =>
    simp only [era, Tree.validateComposition, Tree.validateGroupOrders, Tree.bases, Tree.secretVars,
      eraL_bases, eraL_vars]

theorem era_randomizers (t : Core E) (d : Option (Dict Int)) :
    Tree.updateRandomizers (era t) d = Tree.updateRandomizers t d := by
  unfold Tree.updateRandomizers Tree.getRandomizers
  rw [era_vars, era_bases]

theorem validate_era {σ : Store} {t t' : Core E} (h : era t = era t') :
    Tree.validateComposition σ t = Tree.validateComposition σ t' := by
  rw [← era_validate, h, era_validate]

theorem randomizers_era {t t' : Core E} (h : era t = era t') (d : Option (Dict Int)) :
    Tree.updateRandomizers t d = Tree.updateRandomizers t' d := by
  rw [← era_randomizers, h, era_randomizers]

/-! ### Provers with the left-hand sides that their values give -/

mutual
/-- The prover with the left-hand sides of the leaves really proved replaced by what its values give. -/
def fixP (σ : Store) (X : Key → Int) : CoreProver E → CoreProver E
  | .leaf p => .leaf (fixLhs σ X p)
  | .and s ps => .and s (fixPL σ X ps)
  | .or s i stmts sub sims => .or s i stmts (fixP σ X sub) sims
def fixPL (σ : Store) (X : Key → Int) : List (CoreProver E) → List (CoreProver E)
  | [] => []
  | p :: ps => fixP σ X p :: fixPL σ X ps
end

theorem fixPL_eq (σ : Store) (X : Key → Int) (ps : List (CoreProver E)) :
    fixPL σ X ps = ps.map (fixP σ X) := by
  induction ps with
  | nil => rfl
  | cons p ps ih => simp [fixPL, ih]

mutual
theorem era_fixP (σ : Store) (X : Key → Int) : ∀ p : CoreProver E,
    era (PTree.stmtOf (fixP σ X p)) = era (PTree.stmtOf p)
  | .leaf p => rfl
  | .and s ps => by simp only [fixP, PTree.stmtOf, era, era_fixPL σ X ps]
  | .or s i stmts sub sims => by
    simp only [fixP, PTree.stmtOf, era, eraL_eq, List.map_set, era_fixP σ X sub]
theorem era_fixPL (σ : Store) (X : Key → Int) : ∀ ps : List (CoreProver E),
    eraL (PTree.stmtOfL (fixPL σ X ps)) = eraL (PTree.stmtOfL ps)
  | [] => rfl
  | p :: ps => by simp only [fixPL, PTree.stmtOfL, eraL, era_fixP σ X p, era_fixPL σ X ps]
end

theorem fixLhs_commit (σ : Store) (X : Key → Int) (p : DLRepProver E) {d : Option (Dict Int)} {w w' : World}
    {com : Val E} {p' : DLRepProver E} (h : DLRepProver.internalCommit p d w = .ok ((com, p'), w')) :
    DLRepProver.internalCommit (fixLhs σ X p) d w = .ok ((com, fixLhs σ X p'), w') := by
  unfold DLRepProver.internalCommit at h ⊢
  obtain ⟨d', w1, h1, h⟩ := pm_bind.mp h
  rw [pm_getStore_bind, pm_liftE_bind_iff] at h
  obtain ⟨ks, hks, h⟩ := h
  obtain ⟨cm, hcm, h⟩ := pm_liftE_bind_iff.mp h
  rw [pm_pure_iff, Prod.mk.injEq, Prod.mk.injEq] at h
  obtain ⟨⟨hcom, hp'⟩, hw'⟩ := h
  have h1' : DLRep.updateRandomizers (fixLhs σ X p).stmt d w = .ok (d', w1) := h1
  have hks' : DLRep.lookupAll w1.store d' (fixLhs σ X p).stmt.secretVars = .ok ks := hks
  have hcm' : DLRepProver.commitWith (fixLhs σ X p).stmt ks = .ok cm := hcm
  rw [pm_bind_eq h1', pm_getStore_bind, hks', pm_liftE_bind, hcm', pm_liftE_bind, ← hcom, ← hw', ← hp']
  rfl

mutual
theorem fixP_commit (σ : Store) (X : Key → Int) : ∀ (p : CoreProver E) (d : Option (Dict Int)) (w w' : World)
    (com : Val E) (p' : CoreProver E), PTree.internalCommit p d w = .ok ((com, p'), w') →
    PTree.internalCommit (fixP σ X p) d w = .ok ((com, fixP σ X p'), w')
  | .leaf p, d, w, w', com, p', h => by
    simp only [PTree.internalCommit] at h
    obtain ⟨⟨v, q⟩, w1, h1, h⟩ := pm_bind.mp h
    rw [pm_pure_iff, Prod.mk.injEq, Prod.mk.injEq] at h
    obtain ⟨⟨rfl, rfl⟩, rfl⟩ := h
    have h1' : ProverOps.internalCommit (fixLhs σ X p) d w = .ok ((v, fixLhs σ X q), w1) :=
      fixLhs_commit σ X p h1
    simp only [fixP, PTree.internalCommit]
    rw [pm_bind_eq h1']; rfl
  | .and s ps, d, w, w', com, p', h => by
    simp only [PTree.internalCommit] at h
    rw [pm_getStore_bind] at h
    obtain ⟨_, hval, h⟩ := pm_liftE_bind_iff.mp h
    obtain ⟨d', w1, h1, h⟩ := pm_bind.mp h
    obtain ⟨⟨vs, ps1⟩, w2, h2, h⟩ := pm_bind.mp h
    rw [pm_pure_iff, Prod.mk.injEq, Prod.mk.injEq] at h
    obtain ⟨⟨rfl, rfl⟩, rfl⟩ := h
    have he := era_fixP σ X (.and s ps)
    simp only [fixP, PTree.stmtOf] at he
    simp only [fixP, PTree.internalCommit]
    rw [pm_getStore_bind, validate_era he, hval, pm_liftE_bind, randomizers_era he, pm_bind_eq h1,
      pm_bind_eq (fixPL_commit σ X ps d' w1 w2 vs ps1 h2)]
    rfl
  | .or s i stmts sub sims, d, w, w', com, p', h => by
    simp only [PTree.internalCommit] at h
    rw [pm_getStore_bind] at h
    obtain ⟨_, hval, h⟩ := pm_liftE_bind_iff.mp h
    obtain ⟨⟨v, p1⟩, w1, h1, h⟩ := pm_bind.mp h
    obtain ⟨vs, hvs, h⟩ := pm_liftE_bind_iff.mp h
    rw [pm_pure_iff, Prod.mk.injEq, Prod.mk.injEq] at h
    obtain ⟨⟨rfl, rfl⟩, rfl⟩ := h
    have he := era_fixP σ X (.or s i stmts sub sims)
    simp only [fixP, PTree.stmtOf] at he
    simp only [fixP, PTree.internalCommit]
    rw [pm_getStore_bind, validate_era he, hval, pm_liftE_bind,
      pm_bind_eq (fixP_commit σ X sub none w w1 v p1 h1)]
    simp only
    rw [hvs, pm_liftE_bind]
    rfl
theorem fixPL_commit (σ : Store) (X : Key → Int) : ∀ (ps : List (CoreProver E)) (d : Dict Int) (w w' : World)
    (coms : List (Val E)) (ps' : List (CoreProver E)), PTree.internalCommitL ps d w = .ok ((coms, ps'), w') →
    PTree.internalCommitL (fixPL σ X ps) d w = .ok ((coms, fixPL σ X ps'), w')
  | [], d, w, w', coms, ps', h => by
    simp only [PTree.internalCommitL, pm_pure_iff, Prod.mk.injEq] at h
    obtain ⟨⟨rfl, rfl⟩, rfl⟩ := h
    rfl
  | p :: ps, d, w, w', coms, ps', h => by
    simp only [PTree.internalCommitL] at h
    obtain ⟨⟨v, p1⟩, w1, h1, h⟩ := pm_bind.mp h
    obtain ⟨⟨vs, ps1⟩, w2, h2, h⟩ := pm_bind.mp h
    rw [pm_pure_iff, Prod.mk.injEq, Prod.mk.injEq] at h
    obtain ⟨⟨rfl, rfl⟩, rfl⟩ := h
    simp only [fixPL, PTree.internalCommitL]
    rw [pm_bind_eq (fixP_commit σ X p (some d) w w1 v p1 h1),
      pm_bind_eq (fixPL_commit σ X ps d w1 w2 vs ps1 h2)]
    rfl
end

mutual
theorem fixP_respond (σ : Store) (X : Key → Int) : ∀ (p : CoreProver E) (c : Int),
    PTree.computeResponse (fixP σ X p) c = PTree.computeResponse p c
  | .leaf p, c => rfl
  | .and s ps, c => by simp only [fixP, PTree.computeResponse, fixPL_respond σ X ps c]
  | .or s i stmts sub sims, c => by simp only [fixP, PTree.computeResponse, fixP_respond σ X sub]
theorem fixPL_respond (σ : Store) (X : Key → Int) : ∀ (ps : List (CoreProver E)) (c : Int),
    PTree.computeResponseL (fixPL σ X ps) c = PTree.computeResponseL ps c
  | [], c => rfl
  | p :: ps, c => by simp only [fixPL, PTree.computeResponseL, fixP_respond σ X p c, fixPL_respond σ X ps c]
end

/-- With its own left-hand sides the prover is honest. -/
theorem fixP_honest {σ : Store} {X : Key → Int} : ∀ (p : CoreProver E) (Y : Key → Int),
    Honest (fun q _ => CoreGood q.stmt) σ p Y →
    (∀ q ∈ active p, (∀ x ∈ q.stmt.secretVars, Dict.get? σ q.secretValues x = some (X (σ.key x))) ∧
      ∀ b ∈ q.stmt.bases, b.grp = q.stmt.lhs.grp) →
    Honest (fun q Z => HonestRep σ q X ∧ Z = X) σ (fixP σ X p) X := by
  intro p
  induction p using PTree.ind with
  | leaf q =>
    intro Y h hX
    cases h with
    | leaf _ _ h =>
    obtain ⟨h1, h2⟩ := hX q (by simp [active])
    exact .leaf _ _ ⟨⟨h1, .rep _ _ h2 rfl, h.2⟩, rfl⟩
  | and s ps ih =>
    intro Y h hX
    cases h with
    | and _ _ _ h =>
    simp only [fixP]
    refine .and _ _ _ fun q hq => ?_
    rw [fixPL_eq, List.mem_map] at hq
    obtain ⟨q0, hq0, rfl⟩ := hq
    exact ih q0 hq0 Y (h q0 hq0) fun a ha => hX a (by simp only [active]; exact mem_activeL.mpr ⟨q0, hq0, ha⟩)
  | or s i stmts sub sims ih =>
    intro Y h hX
    cases h with
    | or _ _ _ _ _ _ Y' h1 h2 h =>
    simp only [fixP]
    exact .or _ _ _ _ _ _ X h1 h2 (ih Y' h fun a ha => hX a (by simpa only [active] using ha))

/-! ### What is recomputed for the real left-hand sides -/

theorem mem_queriedL {L P : Type} {a : P × Int} {ps : List (PTree E L P)} {c : Int} :
    a ∈ queriedL ps c ↔ ∃ p ∈ ps, a ∈ queried p c := by
  induction ps with
  | nil => simp [queriedL]
  | cons p ps ih => simp [queriedL, ih]

theorem respondL_get : ∀ (ps : List (CoreProver E)) (c : Int) (w w' : World) (rs : List (Val E)),
    PTree.computeResponseL ps c w = .ok (rs, w') → rs.length = ps.length ∧
      ∀ (i : Nat) (p : CoreProver E) (r : Val E), ps[i]? = some p → rs[i]? = some r →
        ∃ w1 w2, PTree.computeResponse p c w1 = .ok (r, w2)
  | [], c, w, w', rs, h => by
    simp only [PTree.computeResponseL, pm_pure_iff] at h
    obtain ⟨rfl, rfl⟩ := h
    simp
  | p :: ps, c, w, w', rs, h => by
    simp only [PTree.computeResponseL] at h
    obtain ⟨r, w1, h1, h⟩ := pm_bind.mp h
    obtain ⟨rs1, w2, h2, h⟩ := pm_bind.mp h
    rw [pm_pure_iff] at h
    obtain ⟨rfl, rfl⟩ := h
    obtain ⟨e1, e2⟩ := respondL_get ps c _ _ rs1 h2
    refine ⟨by simp [e1], fun i q r' hq hr => ?_⟩
    cases i with
    | zero => simp at hq hr; subst hq; subst hr; exact ⟨_, _, h1⟩
    | succ i => exact e2 i q r' (by simpa using hq) (by simpa using hr)

theorem miss_eq (σ : Store) (s : DLRep E) (X : Key → Int) : miss σ s X = s.lhs.val - rhsVal σ s X := rfl

theorem asked_eqns (σ : Store) (X : Key → Int) (HL : DLRepProver E → (Key → Int) → Prop) :
    ∀ (p : CoreProver E) (Y : Key → Int) (c : Int) (w w' : World) (r com : Val E), Honest HL σ p Y →
      PTree.computeResponse p c w = .ok (r, w') → Eqns (PTree.stmtOf (fixP σ X p)) c r com →
      ∃ com', Eqns (PTree.stmtOf p) c r com' ∧
        (com' = com ↔ ∀ a ∈ queried p c, a.2 • miss σ a.1.stmt X = 0) := by
  intro p
  induction p using PTree.ind with
  | leaf q =>
    intro Y c w w' r com _ _ h
    simp only [fixP, PTree.stmtOf] at h
    generalize hs : (ProverOps.stmtOf (fixLhs σ X q) : DLRep E) = s at h
    have hs' : s = { q.stmt with lhs := ⟨q.stmt.lhs.grp, rhsVal σ q.stmt X⟩ } := hs.symm
    cases h with
    | rep _ _ _ vs ws h1 h2 h3 h4 =>
    subst hs'
    refine ⟨_, Eqns.rep q.stmt c r vs ws h1 h2 h3 h4, ?_⟩
    simp only [queried, List.mem_singleton, forall_eq, miss_eq, Val.pt.injEq, Pt.mk.injEq, true_and]
    rw [smul_sub, sub_eq_zero, sub_right_inj]
  | and s ps ih =>
    intro Y c w w' r com hh hr h
    cases hh with
    | and _ _ _ hsub =>
    simp only [PTree.computeResponse] at hr
    obtain ⟨rs, w1, hr1, hr⟩ := pm_bind.mp hr
    rw [pm_pure_iff] at hr
    obtain ⟨rfl, rfl⟩ := hr
    obtain ⟨hl, hget⟩ := respondL_get ps c _ _ rs hr1
    simp only [fixP, PTree.stmtOf, fixPL_eq, stmtOfL_eq, List.map_map] at h ⊢
    cases h with
    | all _ _ _ _ coms ri h1 h2 h3 =>
    simp only [List.length_map] at h1 h2
    have key : ∀ i, ∃ ci, ∀ q com, ps[i]? = some q → coms[i]? = some com →
        Eqns (PTree.stmtOf q) c (ri i) ci ∧
          (ci = com ↔ ∀ a ∈ queried q c, a.2 • miss σ a.1.stmt X = 0) := by
      intro i
      by_cases hi : i < ps.length
      · have hps : ps[i]? = some ps[i] := List.getElem?_eq_getElem hi
        have hcoms : coms[i]? = some (coms[i]'(by omega)) := List.getElem?_eq_getElem (by omega)
        have hri := h2 i hi
        rw [index_list] at hri
        have hrs : rs[i]? = some (ri i) := by
          cases h : rs[i]? with
          | none => rw [List.getElem?_eq_none_iff] at h; omega
          | some v => rw [h] at hri; simpa using hri
        obtain ⟨w2, w3, hresp⟩ := hget i _ _ hps hrs
        obtain ⟨ci, e1, e2⟩ := ih ps[i] (List.getElem_mem hi) Y c w2 w3 (ri i) _ (hsub _ (List.getElem_mem hi)) hresp
          (h3 i _ _ (by rw [List.getElem?_map, hps]; rfl) hcoms)
        refine ⟨ci, fun q com hq hcom => ?_⟩
        rw [hps] at hq; rw [hcoms] at hcom
        injection hq with hq; injection hcom with hcom
        subst hq; subst hcom
        exact ⟨e1, e2⟩
      · refine ⟨.none, fun q com hq _ => ?_⟩
        exact absurd (List.getElem?_eq_some_iff.mp hq).1 hi
    choose f hf using key
    refine ⟨.list ((List.range ps.length).map f), Eqns.all _ _ _ _ _ ri (by simp) (by simpa using h2) ?_, ?_⟩
    · intro i t com ht hcom
      rw [List.getElem?_map] at ht
      obtain ⟨q, hq, rfl⟩ := Option.map_eq_some_iff.mp ht
      have hi := (List.getElem?_eq_some_iff.mp hq).1
      have : com = f i := by
        rw [List.getElem?_map, List.getElem?_range hi] at hcom
        simpa using hcom.symm
      subst this
      exact (hf i q _ hq (List.getElem?_eq_getElem (by omega : i < coms.length))).1
    · simp only [Val.list.injEq, queried]
      constructor
      · intro he a ha
        obtain ⟨q, hq, ha⟩ := mem_queriedL.mp ha
        obtain ⟨i, hi, rfl⟩ := List.getElem_of_mem hq
        have hci : coms[i]? = some (f i) := by
          rw [← he, List.getElem?_map, List.getElem?_range hi]; rfl
        exact (hf i _ _ (List.getElem?_eq_getElem hi) hci).2.mp rfl a ha
      · intro ha
        refine List.ext_getElem (by simp [h1]) fun i h4 h5 => ?_
        have hi : i < ps.length := by simpa using h4
        simp only [List.getElem_map, List.getElem_range]
        exact (hf i _ _ (List.getElem?_eq_getElem hi) (List.getElem?_eq_getElem h5)).2.mpr fun a h =>
          ha a (mem_queriedL.mpr ⟨_, List.getElem_mem hi, h⟩)
  | or s idx stmts sub sims ih =>
    intro Y c w w' r com hh hr h
    cases hh with
    | or _ _ _ _ _ _ Y' hidx hsims hsub =>
    obtain ⟨hslen, _⟩ := hsims
    have hlen : stmts.length = sims.length + 1 := by
      rw [List.length_eraseIdx_of_lt hidx] at hslen; omega
    have hidx' : idx ≤ sims.length := by omega
    simp only [PTree.computeResponse] at hr
    obtain ⟨r0, w1, hr0, hr⟩ := pm_bind.mp hr
    obtain ⟨cs0, hcs0, hr⟩ := pm_liftE_bind_iff.mp hr
    obtain ⟨rs0, hrs0, hr⟩ := pm_liftE_bind_iff.mp hr
    rw [pm_pure_iff] at hr
    obtain ⟨rfl, rfl⟩ := hr
    have hm : (sims.map Sim.challenge).length = sims.length := by simp
    have hm' : (sims.map Sim.responses).length = sims.length := by simp
    rw [hlen, ← hm, orSlots_eq _ _ _ (by rw [hm]; exact hidx')] at hcs0
    rw [hlen, ← hm', orSlots_eq _ _ _ (by rw [hm']; exact hidx')] at hrs0
    injection hcs0 with hcs0
    injection hrs0 with hrs0
    have hc0 : cs0[idx]? = some (findResidualChallenge (sims.map Sim.challenge) c challengeLength) := by
      rw [← hcs0, List.getElem?_insertIdx_self, if_pos (by rw [hm]; omega)]
    have hr0' : rs0[idx]? = some r0 := by
      rw [← hrs0, List.getElem?_insertIdx_self, if_pos (by rw [hm']; omega)]
    simp only [fixP, PTree.stmtOf] at h ⊢
    cases h with
    | any _ _ _ _ rs cs coms ri h1 h2 h3 h4 h5 h6 h7 =>
    simp only [List.length_set] at h4 h5 h6
    have hcs : cs = cs0 := by
      have : (Val.tuple [.list (cs0.map Val.int), .list rs0] : Val E).index 0 =
        .ok (.list (cs0.map Val.int)) := rfl
      rw [this] at h1
      simp only [Except.ok.injEq, Val.list.injEq] at h1
      exact (List.map_injective_iff.mpr (fun a b h => by injection h) h1).symm
    have hrs : rs = .list rs0 := by
      have : (Val.tuple [.list (cs0.map Val.int), .list rs0] : Val E).index 1 = .ok (.list rs0) := rfl
      rw [this] at h2
      injection h2 with h2
      exact h2.symm
    subst hcs; subst hrs
    have hri := h6 idx hidx
    rw [index_list, hr0'] at hri
    have hri : r0 = ri idx := by simpa using hri
    have hcl : idx < coms.length := by omega
    obtain ⟨ci, e1, e2⟩ := ih Y' _ _ _ r0 coms[idx] hsub hr0 (by
      have := h7 idx _ _ _ (List.getElem?_set_self hidx) (List.getElem?_eq_getElem hcl) hc0
      rwa [← hri] at this)
    refine ⟨.list (coms.set idx ci), Eqns.any _ _ _ _ _ _ _ ri h1 h2 h3 (by simpa using h4) (by simpa using h5)
      (by simpa using h6) ?_, ?_⟩
    · intro i t com ci' ht hcom hci
      by_cases hii : i = idx
      · subst hii
        rw [List.getElem?_set_self hidx] at ht
        rw [List.getElem?_set_self hcl] at hcom
        rw [hc0] at hci
        injection ht with ht; injection hcom with hcom; injection hci with hci
        subst ht; subst hcom; subst hci
        rw [← hri]; exact e1
      · rw [List.getElem?_set_ne (Ne.symm hii)] at ht hcom
        exact h7 i t com ci' (by rw [List.getElem?_set_ne (Ne.symm hii)]; exact ht) hcom hci
    · simp only [Val.list.injEq, queried]
      rw [← show findResidualChallenge (sims.map Sim.challenge) c challengeLength =
        -(((sims.map Sim.challenge).sum - c) % 2 ^ 128) from findResidual_eq _ _ _, ← e2]
      constructor
      · intro he
        have := congrArg (fun l => l[idx]?) he
        simp only [List.getElem?_set_self hcl, List.getElem?_eq_getElem hcl, Option.some.injEq] at this
        exact this
      · intro he
        rw [he, List.set_getElem_self]

/-! ### Responses agree whatever the left-hand sides -/

theorem agree_era {σ : Store} : ∀ (t : Core E) (r : Val E) (ρ : Key → Val E),
    Agree σ (era t) r ρ ↔ Agree σ t r ρ := by
  intro t
  induction t using Tree.ind with
  | leaf s =>
    intro r ρ
    simp only [era]
    constructor
    · intro h; cases h with | rep _ _ _ h => exact .rep _ _ _ h
    · intro h; cases h with | rep _ _ _ h => exact .rep _ _ _ h
  | and b ts ih =>
    intro r ρ
    simp only [era, eraL_eq]
    constructor
    · intro h
      cases h with
      | all _ _ _ _ ri h1 h2 =>
      refine .all _ _ _ _ ri (by simpa using h1) fun i t ht => ?_
      exact (ih t (List.mem_of_getElem? ht) _ _).mp (h2 i _ (by rw [List.getElem?_map, ht]; rfl))
    · intro h
      cases h with
      | all _ _ _ _ ri h1 h2 =>
      refine .all _ _ _ _ ri (by simpa using h1) fun i t ht => ?_
      rw [List.getElem?_map] at ht
      obtain ⟨u, hu, rfl⟩ := Option.map_eq_some_iff.mp ht
      exact (ih u (List.mem_of_getElem? hu) _ _).mpr (h2 i _ hu)
  | or b ts ih =>
    intro r ρ
    simp only [era, eraL_eq]
    constructor
    · intro h
      cases h with
      | any _ _ _ rs _ ri ρi h0 h1 h2 =>
      refine .any _ _ _ rs _ ri ρi (fun hne => h0 (by simpa using hne)) (by simpa using h1) fun i t ht => ?_
      exact (ih t (List.mem_of_getElem? ht) _ _).mp (h2 i _ (by rw [List.getElem?_map, ht]; rfl))
    · intro h
      cases h with
      | any _ _ _ rs _ ri ρi h0 h1 h2 =>
      refine .any _ _ _ rs _ ri ρi (fun hne => h0 (by simpa using hne)) (by simpa using h1) fun i t ht => ?_
      rw [List.getElem?_map] at ht
      obtain ⟨u, hu, rfl⟩ := Option.map_eq_some_iff.mp ht
      exact (ih u (List.mem_of_getElem? hu) _ _).mpr (h2 i _ hu)

/-! ### Committing changes nothing about who is queried -/

mutual
theorem asked_commit : ∀ (p : CoreProver E) (d : Option (Dict Int)) (w w' : World) (com : Val E)
    (p' : CoreProver E), PTree.internalCommit p d w = .ok ((com, p'), w') →
    (∀ c, (queried p' c).map (fun a => (a.1.stmt, a.2)) = (queried p c).map (fun a => (a.1.stmt, a.2))) ∧
      ∀ (σ : Store) (HL : DLRepProver E → (Key → Int) → Prop) (X : Key → Int), Honest HL σ p X →
        Honest (fun _ _ => True) σ p' X
  | .leaf p, d, w, w', com, p', h => by
    simp only [PTree.internalCommit] at h
    obtain ⟨⟨v, q⟩, w1, h1, h⟩ := pm_bind.mp h
    rw [pm_pure_iff, Prod.mk.injEq, Prod.mk.injEq] at h
    obtain ⟨⟨rfl, rfl⟩, rfl⟩ := h
    have hst : q.stmt = p.stmt := by
      have h1' : DLRepProver.internalCommit p d w = .ok ((v, q), w1) := h1
      unfold DLRepProver.internalCommit at h1'
      obtain ⟨d', w2, h2, h1'⟩ := pm_bind.mp h1'
      rw [pm_getStore_bind, pm_liftE_bind_iff] at h1'
      obtain ⟨ks, hks, h1'⟩ := h1'
      obtain ⟨cm, hcm, h1'⟩ := pm_liftE_bind_iff.mp h1'
      rw [pm_pure_iff, Prod.mk.injEq, Prod.mk.injEq] at h1'
      rw [← h1'.1.2]
    exact ⟨fun c => by simp [queried, hst], fun σ HL X _ => .leaf _ _ trivial⟩
  | .and s ps, d, w, w', com, p', h => by
    simp only [PTree.internalCommit] at h
    rw [pm_getStore_bind] at h
    obtain ⟨_, hval, h⟩ := pm_liftE_bind_iff.mp h
    obtain ⟨d', w1, h1, h⟩ := pm_bind.mp h
    obtain ⟨⟨vs, ps1⟩, w2, h2, h⟩ := pm_bind.mp h
    rw [pm_pure_iff, Prod.mk.injEq, Prod.mk.injEq] at h
    obtain ⟨⟨rfl, rfl⟩, rfl⟩ := h
    obtain ⟨e1, e2⟩ := askedL_commit ps d' _ _ vs ps1 h2
    refine ⟨fun c => by simp only [queried]; exact e1 c, fun σ HL X hh => ?_⟩
    cases hh with
    | and _ _ _ hh => exact .and _ _ _ (e2 σ HL X hh)
  | .or s i stmts sub sims, d, w, w', com, p', h => by
    simp only [PTree.internalCommit] at h
    rw [pm_getStore_bind] at h
    obtain ⟨_, hval, h⟩ := pm_liftE_bind_iff.mp h
    obtain ⟨⟨v, p1⟩, w1, h1, h⟩ := pm_bind.mp h
    obtain ⟨vs, hvs, h⟩ := pm_liftE_bind_iff.mp h
    rw [pm_pure_iff, Prod.mk.injEq, Prod.mk.injEq] at h
    obtain ⟨⟨rfl, rfl⟩, rfl⟩ := h
    obtain ⟨e1, e2⟩ := asked_commit sub none _ _ v p1 h1
    refine ⟨fun c => by simp only [queried]; exact e1 _, fun σ HL X hh => ?_⟩
    cases hh with
    | or _ _ _ _ _ _ X' h1 h2 hh => exact .or _ _ _ _ _ _ X' h1 h2 (e2 σ HL X' hh)
theorem askedL_commit : ∀ (ps : List (CoreProver E)) (d : Dict Int) (w w' : World) (coms : List (Val E))
    (ps' : List (CoreProver E)), PTree.internalCommitL ps d w = .ok ((coms, ps'), w') →
    (∀ c, (queriedL ps' c).map (fun a => (a.1.stmt, a.2)) = (queriedL ps c).map (fun a => (a.1.stmt, a.2))) ∧
      ∀ (σ : Store) (HL : DLRepProver E → (Key → Int) → Prop) (X : Key → Int), (∀ p ∈ ps, Honest HL σ p X) →
        ∀ p ∈ ps', Honest (fun _ _ => True) σ p X
  | [], d, w, w', coms, ps', h => by
    simp only [PTree.internalCommitL, pm_pure_iff, Prod.mk.injEq] at h
    obtain ⟨⟨rfl, rfl⟩, rfl⟩ := h
    exact ⟨fun c => rfl, by simp⟩
  | p :: ps, d, w, w', coms, ps', h => by
    simp only [PTree.internalCommitL] at h
    obtain ⟨⟨v, p1⟩, w1, h1, h⟩ := pm_bind.mp h
    obtain ⟨⟨vs, ps1⟩, w2, h2, h⟩ := pm_bind.mp h
    rw [pm_pure_iff, Prod.mk.injEq, Prod.mk.injEq] at h
    obtain ⟨⟨rfl, rfl⟩, rfl⟩ := h
    obtain ⟨e1, e2⟩ := asked_commit p (some d) _ _ v p1 h1
    obtain ⟨f1, f2⟩ := askedL_commit ps d _ _ vs ps1 h2
    refine ⟨fun c => by simp only [queriedL, List.map_append, e1, f1], fun σ HL X hh q hq => ?_⟩
    rcases List.mem_cons.mp hq with rfl | hq
    · exact e2 σ HL X (hh p (by simp))
    · exact f2 σ HL X (fun p hp => hh p (by simp [hp])) q hq
end

theorem asked_stmts {p p' : CoreProver E} {c : Int}
    (h : (queried p' c).map (fun a => (a.1.stmt, a.2)) = (queried p c).map (fun a => (a.1.stmt, a.2)))
    (Q : DLRep E → Int → Prop) : (∀ a ∈ queried p' c, Q a.1.stmt a.2) ↔ ∀ a ∈ queried p c, Q a.1.stmt a.2 := by
  have key : ∀ l : List (DLRepProver E × Int), (∀ a ∈ l, Q a.1.stmt a.2) ↔
      ∀ b ∈ l.map (fun a => (a.1.stmt, a.2)), Q b.1 b.2 := by
    intro l
    simp only [List.mem_map, forall_exists_index, and_imp, forall_apply_eq_imp_iff₂]
  rw [key, h, ← key]

/-! ### Runs with arbitrary values -/

theorem blank_idem (t : Core E) : Tree.blank (Tree.blank t) = Tree.blank t := by
  induction t using Tree.ind with
  | leaf s => rfl
  | and b ts ih =>
    simp only [Tree.blank, Tree.blankL_eq, List.map_map]
    congr 1
    exact List.map_congr_left ih
  | or b ts ih =>
    simp only [Tree.blank, Tree.blankL_eq, List.map_map]
    congr 1
    exact List.map_congr_left ih

mutual
theorem wf_era : ∀ t : Core E, WellFormed (era t) ↔ WellFormed t
  | .leaf s => Iff.rfl
  | .and b ts => by
    simp only [era, WellFormed, wfL_era ts]
    rw [eraL_eq, ne_eq, List.map_eq_nil_iff]
  | .or b ts => by
    simp only [era, WellFormed, wfL_era ts]
    rw [eraL_eq, ne_eq, List.map_eq_nil_iff]
theorem wfL_era : ∀ ts : List (Core E), WellFormedL (eraL ts) ↔ WellFormedL ts
  | [] => Iff.rfl
  | t :: ts => by simp only [eraL, WellFormedL, wf_era t, wfL_era ts]
end

/-- What a prover with arbitrary values commits to and answers. -/
theorem wrong_run {t t' : Core E} {p p1 p2 : CoreProver E} {d : Dict Int} {w w1 w2 w3 : World}
    (hw : WellFormed t) (ht : Torsion t) (h : PTree.getProver t d w = .ok ((some p, t'), w1))
    (X : Key → Int)
    (hX : ∀ q ∈ active p, (∀ x ∈ q.stmt.secretVars,
      Dict.get? w1.store q.secretValues x = some (X (w1.store.key x))) ∧
      ∀ b ∈ q.stmt.bases, b.grp = q.stmt.lhs.grp)
    {v com : Val E} (hpre : PTree.precommit p w1 = .ok ((v, p1), w2))
    (hcom : PTree.internalCommit p1 none w2 = .ok ((com, p2), w3)) :
    w3.store = w1.store ∧ Tree.blank (PTree.stmtOf p2) = Tree.blank t ∧
    ∀ (c : Int) (w : World), w.store = w1.store → ∃ r w' com', PTree.computeResponse p2 c w = .ok (r, w') ∧
      w'.store = w1.store ∧ preVerification w1.store t r = .ok () ∧ Tree.recompute t c r = .ok com' ∧
      (com' = com ↔ ∀ a ∈ queried p c, a.2 • miss w1.store a.1.stmt X = 0) := by
  obtain ⟨rfl, rfl⟩ := precommit_stmt p v p1 w1 w2 hpre
  obtain ⟨_, e2, e3⟩ := getProver_core hw ht h X
  have hwf : WellFormed (PTree.stmtOf p1) := by rw [← wf_blank, e3, wf_blank]; exact hw
  have hwf' : WellFormed (PTree.stmtOf (fixP w2.store X p1)) := by
    rw [← wf_era, era_fixP, wf_era]; exact hwf
  obtain ⟨f1, f2, ⟨q, hq⟩, ρ, _, f3⟩ := commit_law (fun q Z => HonestRep w2.store q X ∧ Z = X) w2.store
    (fun p Y k hp hk hwf w w' d com p' hu hw h => by
      obtain ⟨hp, rfl⟩ := hp
      exact commitLeaf_core w2.store Y p k hp hk hwf w w' d com p' hu hw h)
    (fixP w2.store X p1) X (Tree.blank (PTree.stmtOf (fixP w2.store X p1))) (fixP_honest p1 X e2 hX)
    (core_blank _) (by rw [wf_blank]; exact hwf') w2 w3 none com (fixP w2.store X p2) (by simp) rfl
    (fixP_commit _ _ _ _ _ _ _ _ hcom)
  have hst := commit_stmt p1 none com p2 w2 w3 hcom
  obtain ⟨g1, g2⟩ := asked_commit p1 none w2 w3 com p2 hcom
  refine ⟨f1, by rw [hst, e3], fun c w hw => ?_⟩
  obtain ⟨r, w', i1, i2, i3, i4⟩ := f3 q hq c w hw
  rw [fixP_respond] at i1
  have hEq : Eqns (PTree.stmtOf (fixP w2.store X p2)) c r com := by
    rw [← recompute_iff] at i3 ⊢
    rw [← i3]
    refine recompute_skel _ _ _ _ ?_
    rw [f2]
    exact (shape_blank _ _ (blank_idem _).symm).1
  obtain ⟨com', j1, j2⟩ := asked_eqns w2.store X (fun _ _ => True) p2 X c w w' r com
    (g2 _ _ _ e2) i1 hEq
  have hsh := shape_blank (PTree.stmtOf p2) t (by rw [hst, e3])
  refine ⟨r, w', com', i1, i2, ?_, ?_, ?_⟩
  · obtain ⟨ρ1, hρ1⟩ := checks_shape (σ := w2.store) (σv := w2.store)
      (kv := PTree.stmtOf (fixP w2.store X p1)) (shape_blank _ _ (blank_idem _).symm).1
      (by rw [(shape_blank _ _ (blank_idem (PTree.stmtOf (fixP w2.store X p1)))).2]; exact seesAs_refl _ _) i4
    have hag : Agree w2.store (PTree.stmtOf p2) r ρ1 := by
      rw [← agree_era, hst, ← era_fixP w2.store X, agree_era]
      exact hρ1
    obtain ⟨ρ', hρ'⟩ := checks_shape (σ := w2.store) (σv := w2.store) (k := PTree.stmtOf p2) (kv := t) hsh.1.symm
      (by rw [hsh.2]; exact seesAs_refl _ _) hag
    unfold preVerification
    obtain ⟨d', hd'⟩ := consistency_iff.mpr ⟨ρ', hρ'⟩
    rw [validate_core, bind_ok, hd']; rfl
  · rw [recompute_skel t (PTree.stmtOf p2) c r hsh.1.symm]
    exact (recompute_iff _ _ _ _).mpr j1
  · rw [j2]
    exact asked_stmts (g1 c) (fun s c => c • miss w2.store s X = 0)

/-! ### Provers of conjunctions -/

/-- What is compared of a prover of a representation. -/
def proverData (q : DLRepProver E) : DLRep E × Dict Int := (q.stmt.norm, q.secretValues)

theorem getProverL_free {σ : Store} {d : Dict Int} : ∀ (ts : List (Core E)),
    (∀ t ∈ ts, ∀ (w w' : World) (p : CoreProver E) (t' : Core E), w.store = σ →
      PTree.getProver t d w = .ok ((some p, t'), w') → w'.store = σ ∧
      (active p).map proverData = (reps t).map (fun s => (s.norm, Dict.update σ s.secretValues d)) ∧
      ∀ c, queried p c = (active p).map (fun q => (q, c))) →
    ∀ (w w' : World) (ps : List (Option (CoreProver E))) (qs : List (CoreProver E)) (ts' : List (Core E)),
      w.store = σ → PTree.getProverL ts d w = .ok ((ps, ts'), w') → PTree.allSome ps = some qs →
      w'.store = σ ∧
      (activeL qs).map proverData = (repsL ts).map (fun s => (s.norm, Dict.update σ s.secretValues d)) ∧
      ∀ c, queriedL qs c = (activeL qs).map (fun q => (q, c))
  | [], _, w, w', ps, qs, ts', hw, h, hq => by
    simp only [PTree.getProverL, pm_pure_iff, Prod.mk.injEq] at h
    obtain ⟨⟨rfl, rfl⟩, rfl⟩ := h
    simp only [PTree.allSome, Option.some.injEq] at hq
    subst hq
    exact ⟨hw, rfl, fun c => rfl⟩
  | t :: ts, ih, w, w', ps, qs, ts', hw, h, hq => by
    simp only [PTree.getProverL] at h
    obtain ⟨⟨p?, t1⟩, w1, h1, h⟩ := pm_bind.mp h
    obtain ⟨⟨ps1, ts1⟩, w2, h2, h⟩ := pm_bind.mp h
    rw [pm_pure_iff, Prod.mk.injEq, Prod.mk.injEq] at h
    obtain ⟨⟨rfl, rfl⟩, rfl⟩ := h
    cases p? with
    | none => simp [PTree.allSome] at hq
    | some p =>
    simp only [PTree.allSome, Option.map_eq_some_iff] at hq
    obtain ⟨qs1, hq1, rfl⟩ := hq
    obtain ⟨e1, e2, e3⟩ := ih t (by simp) w w1 p t1 hw h1
    obtain ⟨f1, f2, f3⟩ := getProverL_free ts (fun t ht => ih t (by simp [ht])) w1 _ ps1 qs1 ts1 e1 h2 hq1
    refine ⟨f1, by simp only [activeL, repsL, List.map_append, e2, f2], fun c => ?_⟩
    simp only [queriedL, activeL, List.map_append, e3, f3]

theorem getProver_free_leaf {d : Dict Int} {s : DLRep E} {w w' : World} {p : CoreProver E} {t' : Core E}
    (h : PTree.getProver (.leaf s) d w = .ok ((some p, t'), w')) : w'.store = w.store ∧
      (active p).map proverData = (reps (.leaf s)).map (fun s => (s.norm, Dict.update w.store s.secretValues d)) ∧
      ∀ c, queried p c = (active p).map (fun q => (q, c)) := by
  simp only [PTree.getProver] at h
  obtain ⟨⟨p?, s'⟩, w1, h1, h⟩ := pm_bind.mp h
  rw [pm_pure_iff, Prod.mk.injEq, Prod.mk.injEq] at h
  obtain ⟨⟨h2, h3⟩, rfl⟩ := h
  obtain ⟨e1, e2, e3⟩ := getProver_dlrep h1
  cases p? with
  | none => simp at h2
  | some q =>
  simp only [Option.map_some, Option.some.injEq] at h2
  subst h2
  obtain ⟨g1, g2, g3⟩ := e3 q rfl
  refine ⟨by rw [e1], ?_, fun c => rfl⟩
  simp only [active, reps, List.map_cons, List.map_nil, proverData, g1, g3]

theorem getProver_free {σ : Store} {d : Dict Int} (hu : updateSecretValues σ d = σ) : ∀ (t : Core E),
    OrFree t → ∀ (w w' : World) (p : CoreProver E) (t' : Core E), w.store = σ →
      PTree.getProver t d w = .ok ((some p, t'), w') → w'.store = σ ∧
      (active p).map proverData = (reps t).map (fun s => (s.norm, Dict.update σ s.secretValues d)) ∧
      ∀ c, queried p c = (active p).map (fun q => (q, c)) := by
  intro t
  induction t using Tree.ind with
  | leaf s =>
    intro _ w w' p t' hw h
    subst hw
    exact getProver_free_leaf h
  | and b ts ih =>
    intro hf w w' p t' hw h
    cases hf with
    | all _ _ hf =>
    simp only [PTree.getProver] at h
    rw [pm_getStore_bind, pm_setStore_bind, hw, hu] at h
    cases b with
    | true =>
      simp only [if_true, pm_pure_iff, Prod.mk.injEq] at h
      exact absurd h.1.1 (by simp)
    | false =>
      simp only [Bool.false_eq_true, if_false] at h
      obtain ⟨⟨ps, ts1⟩, w1, h1, h⟩ := pm_bind.mp h
      simp only at h
      cases hq : PTree.allSome ps with
      | none => rw [hq] at h; exact (raise_ne.mp h).elim
      | some qs =>
      rw [hq] at h
      simp only [pm_pure_iff, Prod.mk.injEq, Option.some.injEq] at h
      obtain ⟨⟨rfl, rfl⟩, rfl⟩ := h
      obtain ⟨e1, e2, e3⟩ := getProverL_free ts (fun t ht => ih t ht (hf t ht)) _ _ ps qs ts1 rfl h1 hq
      exact ⟨e1, by simpa only [active, reps] using e2, by simpa only [active, queried] using e3⟩
  | or b ts ih => intro hf; cases hf

/-- The same for the call from outside. -/
theorem getProver_free_top {d : Dict Int} {t t' : Core E} (hf : OrFree t) {w w' : World} {p : CoreProver E}
    (h : PTree.getProver t d w = .ok ((some p, t'), w')) : w'.store = heapFor w.store d t ∧
      (active p).map proverData =
        (reps t).map (fun s => (s.norm, Dict.update (heapFor w.store d t) s.secretValues d)) ∧
      ∀ c, queried p c = (active p).map (fun q => (q, c)) := by
  cases t with
  | leaf s => exact getProver_free_leaf h
  | or b ts => cases hf
  | and b ts =>
    rw [heapFor_eq w.store d (t := Tree.and b ts) (by simp)]
    refine getProver_free (updateSecretValues_idem _ _) _ hf { w with store := updateSecretValues w.store d } w' p
      t' rfl ?_
    rw [← h]
    simp only [PTree.getProver, pm_getStore_bind, pm_setStore_bind, updateSecretValues_idem]

theorem mem_repsL {ts : List (Core E)} {s : DLRep E} : s ∈ repsL ts ↔ ∃ t ∈ ts, s ∈ reps t := by
  induction ts with
  | nil => simp [repsL]
  | cons t ts ih => simp [repsL, ih]

theorem reps_terms : ∀ (t : Core E) {s : DLRep E}, s ∈ reps t → ∀ z ∈ s.secretVars.zip s.bases, z ∈ terms t := by
  intro t
  induction t using Tree.ind with
  | leaf s => intro s' hs z hz; simp only [reps, List.mem_singleton] at hs; subst hs; exact hz
  | and b ts ih =>
    intro s hs z hz
    simp only [reps] at hs
    obtain ⟨t, ht, hs⟩ := mem_repsL.mp hs
    simp only [terms]; exact mem_termsL.mpr ⟨t, ht, ih t ht hs z hz⟩
  | or b ts ih =>
    intro s hs z hz
    simp only [reps] at hs
    obtain ⟨t, ht, hs⟩ := mem_repsL.mp hs
    simp only [terms]; exact mem_termsL.mpr ⟨t, ht, ih t ht hs z hz⟩

/-- What is missed is killed by the order of the group. -/
theorem miss_torsion {σ : Store} {s : DLRep E} {X : Key → Int} (ht : Torsion (.leaf s))
    (hgrp : ∀ b ∈ s.bases, b.grp = s.lhs.grp) (hl : (s.lhs.grp.order : Int) • s.lhs.val = 0) :
    (s.lhs.grp.order : Int) • miss σ s X = 0 := by
  unfold miss
  rw [smul_sub, hl, zero_sub, neg_eq_zero, smul_list_sum, List.sum_eq_zero]
  intro e he
  obtain ⟨a, ha, rfl⟩ := List.mem_map.mp he
  obtain ⟨i, hi⟩ := List.mem_iff_getElem?.mp ha
  rw [List.getElem?_zipWith] at hi
  cases hx : s.secretVars[i]? with
  | none => simp [hx] at hi
  | some x =>
    cases hbi : s.bases[i]? with
    | none => simp [hx, hbi] at hi
    | some b =>
      simp only [hx, hbi, Option.some.injEq] at hi
      have hm : (x, b) ∈ s.secretVars.zip s.bases := by
        refine List.mem_iff_getElem?.mpr ⟨i, ?_⟩
        rw [List.getElem?_zip_eq_some]; exact ⟨hx, hbi⟩
      have := ht x b hm
      rw [hgrp b (List.mem_of_getElem? hbi)] at this
      rw [← hi, smul_comm, this, smul_zero]

/-- An element killed by a prime and by a number that is no multiple of it is zero. -/
theorem zero_of_prime {q : Nat} (hq : q.Prime) {c : Int} (hc : c % (q : Int) ≠ 0) {D : E}
    (h1 : (q : Int) • D = 0) (h2 : c • D = 0) : D = 0 := by
  have hcop : Nat.Coprime q c.natAbs := by
    refine (Nat.Prime.coprime_iff_not_dvd hq).mpr fun hd => hc ?_
    exact Int.emod_eq_zero_of_dvd (Int.natCast_dvd.mpr hd)
  have hab := Int.gcd_eq_gcd_ab (q : Int) c
  have h1g : Int.gcd (q : Int) c = 1 := by simpa [Int.gcd] using hcop
  rw [h1g, Nat.cast_one] at hab
  calc D = (1 : Int) • D := by simp
    _ = 0 := by
      rw [hab, add_smul, mul_comm, mul_smul, h1, mul_comm, mul_smul, h2]; simp

/-- The provers of a conjunction, in terms of the statement and the values given. -/
theorem free_data {t t1 : Core E} {p : CoreProver E} {d : Dict Int} {w w1 : World}
    (hf : OrFree t) (hd : d.Uniq (heapFor w.store d t)) (X : Key → Int)
    (hval : ∀ s ∈ reps t, (∀ x ∈ s.secretVars,
      given (heapFor w.store d t) d s x = some (X ((heapFor w.store d t).key x))) ∧
      ∀ b ∈ s.bases, b.grp = s.lhs.grp)
    (h : PTree.getProver t d w = .ok ((some p, t1), w1)) :
    w1.store = heapFor w.store d t ∧
    (∀ q ∈ active p, (∀ x ∈ q.stmt.secretVars,
      Dict.get? w1.store q.secretValues x = some (X (w1.store.key x))) ∧
      ∀ b ∈ q.stmt.bases, b.grp = q.stmt.lhs.grp) ∧
    ∀ c, (∀ a ∈ queried p c, a.2 • miss w1.store a.1.stmt X = 0) ↔
      ∀ s ∈ reps t, c • miss w1.store s X = 0 := by
  obtain ⟨e1, e2, e3⟩ := getProver_free_top hf h
  have key : ∀ q ∈ active p, ∃ s ∈ reps t, q.stmt.norm = s.norm ∧
      q.secretValues = Dict.update (heapFor w.store d t) s.secretValues d := by
    intro q hq
    have : proverData q ∈ (active p).map proverData := List.mem_map_of_mem hq
    rw [e2] at this
    obtain ⟨s, hs, he⟩ := List.mem_map.mp this
    simp only [proverData, Prod.mk.injEq] at he
    exact ⟨s, hs, he.1.symm, he.2.symm⟩
  have key' : ∀ s ∈ reps t, ∃ q ∈ active p, q.stmt.norm = s.norm := by
    intro s hs
    have : (s.norm, Dict.update (heapFor w.store d t) s.secretValues d) ∈ (active p).map proverData := by
      rw [e2]; exact List.mem_map.mpr ⟨s, hs, rfl⟩
    obtain ⟨q, hq, he⟩ := List.mem_map.mp this
    simp only [proverData, Prod.mk.injEq] at he
    exact ⟨q, hq, he.1⟩
  have hmiss : ∀ s s' : DLRep E, s.norm = s'.norm → miss w1.store s X = miss w1.store s' X := by
    intro s s' hn
    have h1 : s.bases = s'.bases := by have := congrArg DLRep.bases hn; exact this
    have h2 : s.secretVars = s'.secretVars := by have := congrArg DLRep.secretVars hn; exact this
    have h3 : s.lhs = s'.lhs := by have := congrArg DLRep.lhs hn; exact this
    simp only [miss, h1, h2, h3]
  refine ⟨e1, fun q hq => ?_, fun c => ?_⟩
  · obtain ⟨s, hs, hn, hv⟩ := key q hq
    have h1 : q.stmt.bases = s.bases := by have := congrArg DLRep.bases hn; exact this
    have h2 : q.stmt.secretVars = s.secretVars := by have := congrArg DLRep.secretVars hn; exact this
    have h3 : q.stmt.lhs = s.lhs := by have := congrArg DLRep.lhs hn; exact this
    rw [h1, h2, h3, e1]
    refine ⟨fun x hx => ?_, (hval s hs).2⟩
    have := (hval s hs).1 x hx
    unfold given at this
    rw [hv]
    cases hdx : Dict.get? (heapFor w.store d t) d x with
    | some v => rw [hdx] at this; rw [Dict.get?_update_uniq hd _ x v hdx]; exact this
    | none => rw [hdx] at this; rw [Dict.get?_update_of_none _ hdx]; exact this
  · rw [e3]
    constructor
    · intro ha s hs
      obtain ⟨q, hq, hn⟩ := key' s hs
      rw [← hmiss _ _ hn]
      exact ha (q, c) (List.mem_map.mpr ⟨q, hq, rfl⟩)
    · intro hs a ha
      obtain ⟨q, hq, rfl⟩ := List.mem_map.mp ha
      obtain ⟨s, hsm, hn, _⟩ := key q hq
      rw [hmiss _ _ hn]
      exact hs s hsm

end Zksk
