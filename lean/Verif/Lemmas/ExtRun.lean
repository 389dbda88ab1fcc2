import Verif.Lemmas.ExtLeaf

/-! Statements with extended parts: simulation and `get_prover` do not fail. -/

set_option linter.unusedSectionVars false

namespace Zksk

open Spec

variable {E : Type} [AddCommGroup E] [DecidableEq E]
variable (F : Profile E) (q : Nat) (d : Dict Int) (Z : ExtSpec E → Val E → Prop) (A : Sec → Prop)

theorem built_core : ∀ (t : Stmt E), Good (LeafBuilt F q Z) t → ∃ k, Tree.core t = some k ∧ Solid k ∧
    OneOrder q k ∧ ∀ x ∈ secrets k, AtLeaf (leafOccurs F) t x := by
  have loop : ∀ (ts : List (Stmt E)), (∀ t ∈ ts, ∃ k, Tree.core t = some k ∧ Solid k ∧
      OneOrder q k ∧ ∀ x ∈ secrets k, AtLeaf (leafOccurs F) t x) →
      ∃ ks, Tree.coreL ts = some ks ∧ ks.length = ts.length ∧ SolidL ks ∧
        (∀ x b, (x, b) ∈ termsL ks → b.grp.order = q) ∧
        ∀ x ∈ secretsL ks, ∃ t ∈ ts, AtLeaf (leafOccurs F) t x := by
    intro ts
    induction ts with
    | nil => intro _; exact ⟨[], rfl, rfl, trivial, by simp [termsL], by simp [secretsL]⟩
    | cons t ts ih =>
      intro h
      obtain ⟨k, h1, h2, h3, h4⟩ := h t (by simp)
      obtain ⟨ks, g1, g2, g3, g4, g5⟩ := ih fun t ht => h t (by simp [ht])
      refine ⟨k :: ks, Tree.coreL_cons.mpr ⟨k, ks, h1, g1, rfl⟩, by simp [g2], ⟨h2, g3⟩, ?_, ?_⟩
      · intro x b hx
        simp only [termsL, List.mem_append] at hx
        exact hx.elim (h3 x b) (g4 x b)
      · intro x hx
        simp only [secretsL, List.mem_append] at hx
        rcases hx with hx | hx
        · exact ⟨t, by simp, h4 x hx⟩
        · obtain ⟨u, hu, hx⟩ := g5 x hx
          exact ⟨u, by simp [hu], hx⟩
  intro t
  induction t using Tree.ind with
  | leaf l =>
    intro h
    cases h with
    | leaf _ h =>
    obtain ⟨k, h1, h2, h3, h4⟩ := core_built F q Z h
    exact ⟨k, h1, h2, h3, fun x hx => .leaf l x (h4 x hx)⟩
  | and s subs ih =>
    intro h
    cases h with
    | and _ _ hne h =>
    obtain ⟨ks, g1, g2, g3, g4, g5⟩ := loop subs fun t ht => ih t ht (h t ht)
    refine ⟨.and false ks, by simp [Tree.core, g1], ⟨?_, g3⟩, g4, fun x hx => ?_⟩
    · rintro rfl; exact hne (List.length_eq_zero_iff.mp g2.symm)
    · obtain ⟨u, hu, hx⟩ := g5 x hx
      exact .all s subs u x hu hx
  | or s subs ih =>
    intro h
    cases h with
    | or _ _ hne h =>
    obtain ⟨ks, g1, g2, g3, g4, g5⟩ := loop subs fun t ht => ih t ht (h t ht)
    refine ⟨.or false ks, by simp [Tree.core, g1], ⟨?_, g3⟩, g4, fun x hx => ?_⟩
    · rintro rfl; exact hne (List.length_eq_zero_iff.mp g2.symm)
    · obtain ⟨u, hu, hx⟩ := g5 x hx
      exact .any s subs u x hu hx

theorem updateRandomizers_core {t : Stmt E} {k : Core E} (hk : Tree.core t = some k) (d : Option (Dict Int)) :
    Tree.updateRandomizers t d = Tree.updateRandomizers k d := by
  unfold Tree.updateRandomizers Tree.getRandomizers
  rw [Tree.core_vars t k hk, Tree.core_bases t k hk]

theorem updateRandomizers_built {t : Stmt E} (h : Good (LeafBuilt F q Z) t) (d : Option (Dict Int)) (w : World)
    (hu : ∀ d0, d = some d0 → d0.Uniq w.store) :
    ∃ d' w', Tree.updateRandomizers t d w = .ok (d', w') ∧ w'.store = w.store ∧ d'.Uniq w.store := by
  obtain ⟨k, h1, h2, _⟩ := built_core F q Z t h
  obtain ⟨d', w', g1, g2, g3⟩ := updateRandomizers_progress (good_of_solid k h2) d w hu
  exact ⟨d', w', by rw [updateRandomizers_core h1]; exact g1, g2, g3.1⟩

theorem simulate_built : ∀ (t : Stmt E), Good (LeafBuilt F q Z) t →
    ∀ (d : Option (Dict Int)) (c : Option Int) (w : World), (∀ d0, d = some d0 → d0.Uniq w.store) →
    ∃ sim w', Tree.simulate t d c w = .ok (sim, w') ∧ w'.store = w.store := by
  intro t
  induction t using Tree.ind with
  | leaf l =>
    intro h d c w hu
    cases h with
    | leaf _ h =>
    cases l with
    | dlrep s => exact simulate_progress_dlrep s h.1 d c w hu
    | ext s =>
      obtain ⟨k', _, _, h1, _, _, _, h2, _⟩ := h
      obtain ⟨sim, w', g1, g2⟩ := simulate_progress k' (good_of_solid k' h2) d c w hu
      refine ⟨{ sim with precommitment := s.precommitment }, w', ?_, g2⟩
      simp only [Tree.simulate, StmtOps.simulate, Ext.simulate, Ext.inner, h1]
      rw [pm_liftE_bind, pm_bind_eq g1]
      rfl
  | and s subs ih =>
    intro h d c w hu
    obtain ⟨d', w1, h1, h2, h3⟩ := updateRandomizers_built F q Z h d w hu
    obtain ⟨c', w2, h4, h5⟩ := challengeOrDraw_progress c w1
    cases h with
    | and _ _ hne hg =>
    have hrec : ∀ (ts : List (Stmt E)), (∀ t ∈ ts, t ∈ subs) → ∀ w3, w3.store = w.store →
        ∃ sims w', Tree.simulateAnd ts d' c' w3 = .ok (sims, w') ∧ w'.store = w.store := by
      intro ts
      induction ts with
      | nil => intro _ w3 hw; exact ⟨[], w3, rfl, hw⟩
      | cons t ts iht =>
        intro hm w3 hw
        obtain ⟨sim, w4, g1, g2⟩ := ih t (hm t (by simp)) (hg t (hm t (by simp))) (some d') (some c') w3
          (by intro d0 hd; injection hd with hd; subst hd; rw [hw]; exact h3)
        obtain ⟨sims, w5, g3, g4⟩ := iht (fun t ht => hm t (by simp [ht])) w4 (g2.trans hw)
        refine ⟨sim :: sims, w5, ?_, g4⟩
        simp only [Tree.simulateAnd]
        rw [pm_bind_eq g1, pm_bind_eq g3]
        rfl
    obtain ⟨sims, w3, g1, g2⟩ := hrec subs (fun t ht => ht) w2 (h5.trans h2)
    refine ⟨{ commitment := .list (sims.map Sim.commitment), challenge := c',
              responses := .list (sims.map Sim.responses),
              precommitment := .list (sims.map Sim.precommitment) }, w3, ?_, g2⟩
    · simp only [Tree.simulate]
      rw [pm_bind_eq h1, pm_bind_eq h4, pm_bind_eq g1]
      rfl
  | or s subs ih =>
    intro h d c w hu
    obtain ⟨c', w2, h4, h5⟩ := challengeOrDraw_progress c w
    cases h with
    | or _ _ hne hg =>
    have hrec : ∀ (ts : List (Stmt E)), (∀ t ∈ ts, t ∈ subs) → ∀ (acc : List Int) w3, w3.store = w.store →
        ∃ sims w', Tree.simulateOr ts c' acc w3 = .ok (sims, w') ∧ w'.store = w.store := by
      intro ts
      induction ts with
      | nil => intro _ acc w3 hw; exact ⟨[], w3, rfl, hw⟩
      | cons t ts iht =>
        intro hm acc w3 hw
        cases ts with
        | nil =>
          obtain ⟨sim, w4, g1, g2⟩ := ih t (hm t (by simp)) (hg t (hm t (by simp))) none
            (some (findResidualChallenge acc c' challengeLength)) w3 (by simp)
          refine ⟨[sim], w4, ?_, g2.trans hw⟩
          simp only [Tree.simulateOr]
          rw [pm_bind_eq g1]
          rfl
        | cons t' ts =>
          obtain ⟨sim, w4, g1, g2⟩ := ih t (hm t (by simp)) (hg t (hm t (by simp))) none none w3 (by simp)
          obtain ⟨sims, w5, g3, g4⟩ := iht (fun t ht => hm t (by simp [ht])) (acc ++ [sim.challenge])
            w4 (g2.trans hw)
          refine ⟨sim :: sims, w5, ?_, g4⟩
          simp only [Tree.simulateOr]
          rw [pm_bind_eq g1, pm_bind_eq g3]
          rfl
    obtain ⟨sims, w3, g1, g2⟩ := hrec subs (fun t ht => ht) [] w2 h5
    refine ⟨{ commitment := .list (sims.map Sim.commitment), challenge := c',
              responses := .tuple [.list (sims.map (fun s => .int s.challenge)),
                                   .list (sims.map Sim.responses)],
              precommitment := .list (sims.map Sim.precommitment) }, w3, ?_, g2⟩
    · simp only [Tree.simulate]
      rw [pm_bind_eq h4, pm_bind_eq g1]
      rfl

section
variable {σ : Store} (hu : updateSecretValues σ d = σ) (hd : d.Uniq σ) (hA : ∀ e ∈ d, ¬ A e.1)
include hu hd hA

theorem prepareSim_good : ∀ (t : Stmt E), Good (LeafGood F q Z A σ) t → ∀ w, w.store = σ →
    ∃ t' w', Tree.prepareSim t w = .ok (t', w') := by
  have loop : ∀ (ts : List (Stmt E)), (∀ t ∈ ts, Good (LeafGood F q Z A σ) t) →
      (∀ t ∈ ts, ∀ w, w.store = σ → ∃ t' w', Tree.prepareSim t w = .ok (t', w')) →
      ∀ w, w.store = σ → ∃ ts' w', Tree.prepareSimL ts w = .ok (ts', w') := by
    intro ts
    induction ts with
    | nil => intro _ _ w _; exact ⟨[], w, rfl⟩
    | cons t ts ih =>
      intro hg h w hw
      obtain ⟨t', w1, h1⟩ := h t (by simp) w hw
      obtain ⟨e1, _⟩ := prepareSim_law _ _ σ (getLaws_stmt F q d Z A σ hu hd hA).prep t (hg t (by simp)) t' w w1 hw h1
      obtain ⟨ts', w2, h2⟩ := ih (fun t ht => hg t (by simp [ht])) (fun t ht => h t (by simp [ht])) w1 e1
      refine ⟨t' :: ts', w2, ?_⟩
      simp only [Tree.prepareSimL]
      rw [pm_bind_eq h1, pm_bind_eq h2]
      rfl
  intro t
  induction t using Tree.ind with
  | leaf l =>
    intro h w hw
    cases h with
    | leaf _ h =>
    cases l with
    | dlrep s => exact ⟨.leaf (.dlrep s), w, rfl⟩
    | ext s =>
      obtain ⟨v, w2, k, c1, c2, c3, c4, c5, c6, c7, c8⟩ := h.1 w hw
      refine ⟨.leaf (.ext ⟨s.spec, s.simulated, v, some k, s.verifier⟩), w2, ?_⟩
      simp only [Tree.prepareSim, StmtOps.prepareSim]
      have : Ext.prepareSim s w = .ok (⟨s.spec, s.simulated, v, some k, s.verifier⟩, w2) := by
        unfold Ext.prepareSim Ext.fullConstruct
        rw [pm_bind_eq c1, pm_getStore_bind, c2, c3, bind_ok]
        rfl
      have h2 : ((do pure (Leaf.ext (← Ext.prepareSim s))) : PM (Leaf E)) w =
          .ok (Leaf.ext ⟨s.spec, s.simulated, v, some k, s.verifier⟩, w2) := by
        rw [pm_bind_eq this]; rfl
      rw [pm_bind_eq h2]
      rfl
  | and s subs ih =>
    intro h w hw
    cases h with
    | and _ _ hne h =>
    obtain ⟨ts', w', h1⟩ := loop subs h (fun t ht => ih t ht (h t ht)) w hw
    refine ⟨.and s ts', w', ?_⟩
    simp only [Tree.prepareSim]
    rw [pm_bind_eq h1]; rfl
  | or s subs ih =>
    intro h w hw
    cases h with
    | or _ _ hne h =>
    obtain ⟨ts', w', h1⟩ := loop subs h (fun t ht => ih t ht (h t ht)) w hw
    refine ⟨.or s ts', w', ?_⟩
    simp only [Tree.prepareSim]
    rw [pm_bind_eq h1]; rfl

theorem setup_good (idx : Nat) : ∀ (ts : List (Stmt E)) (index : Nat),
    (∀ t ∈ ts, Good (LeafGood F q Z A σ) t) →
    ∀ w, w.store = σ → ∃ ts' sims w',
      (PTree.setupSimulations idx ts index : PM (List (Stmt E) × List (Sim E))) w = .ok ((ts', sims), w')
  | [], index, _, w, _ => ⟨[], [], w, rfl⟩
  | t :: ts, index, h, w, hw => by
    simp only [PTree.setupSimulations]
    split
    · obtain ⟨ts', sims, w', h1⟩ := setup_good idx ts (index + 1) (fun t ht => h t (by simp [ht])) w hw
      exact ⟨t :: ts', sims, w', by rw [pm_bind_eq h1]; rfl⟩
    · obtain ⟨t', w1, h1⟩ := prepareSim_good F q d Z A hu hd hA t (h t (by simp)) w hw
      obtain ⟨e1, _, e2, _⟩ := prepareSim_law _ _ σ (getLaws_stmt F q d Z A σ hu hd hA).prep t (h t (by simp)) t' w w1 hw h1
      obtain ⟨sim, w2, h2, h3⟩ := simulate_built F q Z t' (good_wider (fun _ h => h.1) e2) none none w1 (by simp)
      obtain ⟨ts', sims, w', h4⟩ := setup_good idx ts (index + 1) (fun t ht => h t (by simp [ht])) w2 (h3.trans e1)
      refine ⟨t' :: ts', sim :: sims, w', ?_⟩
      rw [pm_bind_eq h1, pm_bind_eq h2, pm_bind_eq h4]
      rfl

omit hu hd hA in
theorem candidates_stmt : ∀ (ts : List (Stmt E)) (i : Nat), (∃ t ∈ ts, t.simulated = false) →
    PTree.candidates ts i ≠ []
  | [], i, h => by simp at h
  | t :: ts, i, h => by
    simp only [PTree.candidates]
    split
    · rename_i hs
      obtain ⟨u, hu, hm⟩ := h
      rcases List.mem_cons.mp hu with rfl | hu
      · rw [hm] at hs; cases hs
      · exact candidates_stmt ts (i + 1) ⟨u, hu, hm⟩
    · simp

omit hu hd hA in
theorem sat_of_proved {t : Stmt E} (h : ProvedLeaf (LeafSat F q d Z σ) t) : Sat (LeafSat F q d Z σ) t := by
  induction h with
  | leaf l h => exact .leaf l h
  | all subs _ ih => exact .and _ subs ih
  | any subs _ _ ih => exact .or _ subs ih

theorem getProver_good : ∀ (t : Stmt E), Good (LeafGood F q Z A σ) t →
    ProvedLeaf (LeafSat F q d Z σ) t → ∀ w, w.store = σ →
    ∃ p t' w', (PTree.getProver t d : PM (Option (StmtProver E) × Stmt E)) w = .ok ((some p, t'), w') := by
  intro t
  induction t using Tree.ind with
  | leaf l =>
    intro hg hs w hw
    cases hg with
    | leaf _ hg =>
    cases hs with
    | leaf _ hs =>
    cases l with
    | dlrep s =>
      obtain ⟨p, s', h1⟩ := getProver_progress_dlrep hg.1.1.1 (w := w) (d := d) (hw ▸ hd)
        (fun x hx => by rw [hw, hs.1 x hx]; rfl)
      refine ⟨.leaf (.dlrep p), .leaf (.dlrep s'), w, ?_⟩
      simp only [PTree.getProver]
      have h1' : (ProverOps.getProver (Leaf.dlrep s) d : PM (Option (LeafProver E) × Leaf E)) w =
        .ok ((some (.dlrep p), .dlrep s'), w) := by
        simp only [ProverOps.getProver]
        rw [pm_bind_eq h1]; rfl
      rw [pm_bind_eq h1']
      rfl
    | ext s =>
      refine ⟨.leaf (.ext ⟨s, d, none⟩), .leaf (.ext s), { w with store := updateSecretValues w.store d }, ?_⟩
      simp only [PTree.getProver]
      have h1' : (ProverOps.getProver (Leaf.ext s) d : PM (Option (LeafProver E) × Leaf E)) w =
        .ok ((some (.ext ⟨s, d, none⟩), .ext s), { w with store := updateSecretValues w.store d }) := rfl
      rw [pm_bind_eq h1']
      rfl
  | and b subs ih =>
    intro hg hs w hw
    cases hg with
    | and _ _ hne hg =>
    cases hs with
    | all _ hs =>
    have hrec : ∀ (ts : List (Stmt E)), (∀ t ∈ ts, t ∈ subs) → ∀ w, w.store = σ →
        ∃ (ps : List (StmtProver E)) (ts' : List (Stmt E)) (w' : World),
          (PTree.getProverL ts d : PM (List (Option (StmtProver E)) × List (Stmt E))) w =
          .ok ((ps.map some, ts'), w') := by
      intro ts
      induction ts with
      | nil => intro _ w _; exact ⟨[], [], w, rfl⟩
      | cons t ts iht =>
        intro hm w hw
        have ht := hm t (by simp)
        obtain ⟨p, t', w1, h1⟩ := ih t ht (hg t ht) (hs t ht) w hw
        obtain ⟨h2, _⟩ := getProver_full (getLaws_stmt F q d Z A σ hu hd hA) valueOf t (hg t ht)
          (sat_of_proved F q d Z (hs t ht)) t' (some p) w w1 hw h1
        obtain ⟨ps, ts', w2, h3⟩ := iht (fun t ht => hm t (by simp [ht])) w1 h2
        refine ⟨p :: ps, t' :: ts', w2, ?_⟩
        simp only [PTree.getProverL]
        rw [pm_bind_eq h1, pm_bind_eq h3]
        rfl
    have hall : ∀ (ps : List (StmtProver E)), PTree.allSome (ps.map some) = some ps := by
      intro ps
      induction ps with
      | nil => rfl
      | cons p ps ih => simp [PTree.allSome, ih]
    obtain ⟨ps, ts', w', h1⟩ := hrec subs (fun t ht => ht) w hw
    refine ⟨.and false ps, .and false ts', w', ?_⟩
    simp only [PTree.getProver, pm_getStore_bind, pm_setStore_bind, hw, hu]
    have hww : ({ w with store := σ } : World) = w := by cases w; simp at hw; simp [hw]
    rw [hww]
    simp only [Bool.false_eq_true, if_false]
    rw [pm_bind_eq h1]
    simp only [hall]
    rfl
  | or b subs ih =>
    intro hg hs w hw
    cases hg with
    | or _ _ hne hg =>
    cases hs with
    | any _ hex hs =>
    have hne := candidates_stmt subs 0 hex
    obtain ⟨i, w1, h1⟩ := choice_progress hne w
    obtain ⟨h2, h3⟩ := choice_mem h1
    obtain ⟨_, t, ht, hun⟩ := candidates_mem subs 0 i h2
    simp only [Nat.sub_zero] at ht
    have hm := List.mem_of_getElem? ht
    obtain ⟨p, t', w2, h4⟩ := ih t hm (hg t hm) (hs t hm hun) w1 (h3.trans hw)
    obtain ⟨h5, h6, _⟩ := getProver_full (getLaws_stmt F q d Z A σ hu hd hA) valueOf t (hg t hm)
      (sat_of_proved F q d Z (hs t hm hun)) t' (some p) w1 w2 (h3.trans hw) h4
    have hgood : ∀ u ∈ subs.set i t', Good (LeafGood F q Z A σ) u := by
      intro u hu
      rcases List.mem_or_eq_of_mem_set hu with hu | rfl
      · exact hg u hu
      · exact h6
    obtain ⟨ts', sims, w3, h7⟩ := setup_good F q d Z A hu hd hA i (subs.set i t') 0 hgood w2 h5
    refine ⟨.or false i ts' p sims, .or false ts', w3, ?_⟩
    simp only [PTree.getProver, pm_getStore_bind, pm_setStore_bind, hw, hu]
    have hww : ({ w with store := σ } : World) = w := by cases w; simp at hw; simp [hw]
    rw [hww]
    simp only [Bool.false_eq_true, if_false]
    have hloop : (PTree.orLoop (PTree.getProverActs subs d) (PTree.candidates subs 0).length
        (PTree.candidates subs 0) subs :
          PM (Option (Nat × StmtProver E) × List (Stmt E))) w = .ok ((some (i, p), subs.set i t'), w2) := by
      cases hc : (PTree.candidates subs 0).length with
      | zero => exact (hne (List.length_eq_zero_iff.mp hc)).elim
      | succ n =>
        simp only [PTree.orLoop]
        rw [if_neg (by simpa using hne)]
        rw [pm_bind_eq h1]
        simp only [getProverActs_get, ht, Option.map_some]
        rw [pm_bind_eq h4]
        rfl
    rw [pm_bind_eq hloop]
    simp only
    rw [pm_bind_eq h7]
    rfl

theorem getProver_goodT : ∀ (t : Stmt E), GoodT (LeafOuter F q A) (LeafGood F q Z A σ) t →
    ProvedLeaf (LeafSat F q d Z σ) t → ∀ w, w.store = σ →
    ∃ p t' w', (PTree.getProver t d : PM (Option (StmtProver E) × Stmt E)) w = .ok ((some p, t'), w') := by
  intro t
  induction t using Tree.ind with
  | leaf l =>
    intro hg hs w hw
    cases hg with
    | leaf _ hg =>
    cases hs with
    | leaf _ hs =>
    cases l with
    | dlrep s =>
      obtain ⟨p, s', h1⟩ := getProver_progress_dlrep hg.1.1.1 (w := w) (d := d) (hw ▸ hd)
        (fun x hx => by rw [hw, hs.1 x hx]; rfl)
      refine ⟨.leaf (.dlrep p), .leaf (.dlrep s'), w, ?_⟩
      simp only [PTree.getProver]
      have h1' : (ProverOps.getProver (Leaf.dlrep s) d : PM (Option (LeafProver E) × Leaf E)) w =
        .ok ((some (.dlrep p), .dlrep s'), w) := by
        simp only [ProverOps.getProver]
        rw [pm_bind_eq h1]; rfl
      rw [pm_bind_eq h1']
      rfl
    | ext s =>
      refine ⟨.leaf (.ext ⟨s, d, none⟩), .leaf (.ext s), { w with store := updateSecretValues w.store d }, ?_⟩
      simp only [PTree.getProver]
      have h1' : (ProverOps.getProver (Leaf.ext s) d : PM (Option (LeafProver E) × Leaf E)) w =
        .ok ((some (.ext ⟨s, d, none⟩), .ext s), { w with store := updateSecretValues w.store d }) := rfl
      rw [pm_bind_eq h1']
      rfl
  | and b subs ih =>
    intro hg hs w hw
    cases hg with
    | and _ _ hne hg =>
    cases hs with
    | all _ hs =>
    have hrec : ∀ (ts : List (Stmt E)), (∀ t ∈ ts, t ∈ subs) → ∀ w, w.store = σ →
        ∃ (ps : List (StmtProver E)) (ts' : List (Stmt E)) (w' : World),
          (PTree.getProverL ts d : PM (List (Option (StmtProver E)) × List (Stmt E))) w =
          .ok ((ps.map some, ts'), w') := by
      intro ts
      induction ts with
      | nil => intro _ w _; exact ⟨[], [], w, rfl⟩
      | cons t ts iht =>
        intro hm w hw
        have ht := hm t (by simp)
        obtain ⟨p, t', w1, h1⟩ := ih t ht (hg t ht) (hs t ht) w hw
        obtain ⟨h2, _⟩ := getProver_fullT (getLaws_stmt F q d Z A σ hu hd hA) (get_stmt F q d Z A σ hu hd hA) valueOf t (hg t ht)
          (sat_of_proved F q d Z (hs t ht)) t' (some p) w w1 hw h1
        obtain ⟨ps, ts', w2, h3⟩ := iht (fun t ht => hm t (by simp [ht])) w1 h2
        refine ⟨p :: ps, t' :: ts', w2, ?_⟩
        simp only [PTree.getProverL]
        rw [pm_bind_eq h1, pm_bind_eq h3]
        rfl
    have hall : ∀ (ps : List (StmtProver E)), PTree.allSome (ps.map some) = some ps := by
      intro ps
      induction ps with
      | nil => rfl
      | cons p ps ih => simp [PTree.allSome, ih]
    obtain ⟨ps, ts', w', h1⟩ := hrec subs (fun t ht => ht) w hw
    refine ⟨.and false ps, .and false ts', w', ?_⟩
    simp only [PTree.getProver, pm_getStore_bind, pm_setStore_bind, hw, hu]
    have hww : ({ w with store := σ } : World) = w := by cases w; simp at hw; simp [hw]
    rw [hww]
    simp only [Bool.false_eq_true, if_false]
    rw [pm_bind_eq h1]
    simp only [hall]
    rfl
  | or b subs _ =>
    intro hg hs w hw
    cases hg with
    | or _ _ hg => exact getProver_good F q d Z A hu hd hA _ hg hs w hw

end

end Zksk
