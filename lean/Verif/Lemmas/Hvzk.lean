import Verif.SpecRun
import Verif.Lemmas.Tape

/-! Honest and simulated runs on related random streams coincide. -/

set_option linter.unusedSectionVars false

namespace Zksk

open Spec

variable {E : Type} [AddCommGroup E] [DecidableEq E]

theorem orFree_stmtOf {p : CoreProver E} (h : OrFreeP p) : OrFree (PTree.stmtOf p) := by
  induction h with
  | leaf p => exact .rep _
  | and s subs h ih =>
    refine .all _ _ ?_
    have : ∀ (ps : List (CoreProver E)), (∀ p ∈ ps, p ∈ subs) → ∀ t ∈ PTree.stmtOfL ps, OrFree t := by
      intro ps
      induction ps with
      | nil => intro _ t ht; cases ht
      | cons p ps ihp =>
        intro hsub t ht
        simp only [PTree.stmtOfL, List.mem_cons] at ht
        rcases ht with rfl | ht
        · exact ih p (hsub p (by simp))
        · exact ihp (fun p hp => hsub p (by simp [hp])) t ht
    exact this subs fun p hp => hp

/-- `get_prover` of a statement without disjunctions draws nothing. -/
theorem getProver_orFree (d : Dict Int) : ∀ (t : Core E), OrFree t → ∀ (w w' : World) (t' : Core E)
    (p? : Option (CoreProver E)),
    (PTree.getProver t d : PM (Option (CoreProver E) × Core E)) w = .ok ((p?, t'), w') →
    w'.rng = w.rng ∧ ∀ p, p? = some p → OrFreeP p := by
  intro t
  induction t using Tree.ind with
  | leaf s =>
    intro _ w w' t' p? h
    simp only [PTree.getProver, ProverOps.getProver, DLRepProver.getProver] at h
    obtain ⟨⟨q?, s'⟩, w1, h1, h⟩ := pm_bind.mp h
    rw [pm_getStore_bind] at h1
    simp only [pm_pure_iff, Prod.mk.injEq] at h
    obtain ⟨⟨rfl, _⟩, rfl⟩ := h
    have hw : w1 = w := by
      split at h1 <;> (rw [pm_pure_iff, Prod.mk.injEq] at h1; exact h1.2.symm)
    refine ⟨by rw [hw], fun p hp => ?_⟩
    cases q? with
    | none => simp at hp
    | some q => simp at hp; subst hp; exact .leaf q
  | and b subs ih =>
    intro hf w w' t' p? h
    cases hf with
    | all _ _ hf =>
    simp only [PTree.getProver] at h
    rw [pm_getStore_bind, pm_setStore_bind] at h
    split at h
    · simp only [pm_pure_iff, Prod.mk.injEq] at h
      obtain ⟨⟨rfl, _⟩, rfl⟩ := h
      exact ⟨rfl, by simp⟩
    · obtain ⟨⟨ps, subs'⟩, w1, h1, h⟩ := pm_bind.mp h
      simp only at h
      have key : ∀ (ts ts' : List (Core E)) (ps : List (Option (CoreProver E))) (w w' : World),
          (∀ t ∈ ts, t ∈ subs) → PTree.getProverL ts d w = .ok ((ps, ts'), w') →
          w'.rng = w.rng ∧ ∀ p, some p ∈ ps → OrFreeP p := by
        intro ts
        induction ts with
        | nil =>
          intro ts' ps w w' _ h
          simp only [PTree.getProverL, pm_pure_iff, Prod.mk.injEq] at h
          obtain ⟨⟨rfl, _⟩, rfl⟩ := h
          exact ⟨rfl, by simp⟩
        | cons t ts iht =>
          intro ts' ps w w' hsub h
          simp only [PTree.getProverL] at h
          obtain ⟨⟨p?, t1⟩, w1, h1, h⟩ := pm_bind.mp h
          obtain ⟨⟨ps', ts1⟩, w2, h2, h⟩ := pm_bind.mp h
          simp only [pm_pure_iff, Prod.mk.injEq] at h
          obtain ⟨⟨rfl, _⟩, rfl⟩ := h
          obtain ⟨g1, g2⟩ := ih t (hsub t (by simp)) (hf t (hsub t (by simp))) _ _ _ _ h1
          obtain ⟨g3, g4⟩ := iht ts1 ps' w1 w2 (fun t ht => hsub t (by simp [ht])) h2
          refine ⟨g3.trans g1, fun p hp => ?_⟩
          rcases List.mem_cons.mp hp with e | hp
          · exact g2 p e.symm
          · exact g4 p hp
      obtain ⟨k1, k2⟩ := key subs subs' ps _ w1 (fun t ht => ht) h1
      cases hall : PTree.allSome ps with
      | none => simp only [hall, raise_ne] at h
      | some ps' =>
        simp only [hall, pm_pure_iff, Prod.mk.injEq] at h
        obtain ⟨⟨rfl, _⟩, rfl⟩ := h
        refine ⟨k1, fun p hp => ?_⟩
        injection hp with hp; subst hp
        refine .and _ _ fun p hp => k2 p ?_
        have : ∀ (ps : List (Option (CoreProver E))) (ps' : List (CoreProver E)),
            PTree.allSome ps = some ps' → ∀ p ∈ ps', some p ∈ ps := by
          intro ps
          induction ps with
          | nil => intro ps' h p hp; simp [PTree.allSome] at h; subst h; cases hp
          | cons q ps ihp =>
            intro ps' h p hp
            cases q with
            | none => simp [PTree.allSome] at h
            | some q =>
              simp only [PTree.allSome, Option.map_eq_some_iff] at h
              obtain ⟨ps1, h1, rfl⟩ := h
              rcases List.mem_cons.mp hp with rfl | hp
              · simp
              · exact List.mem_cons_of_mem _ (ihp ps1 h1 p hp)
        exact this ps ps' hall p hp
  | or b subs ih => intro hf; cases hf

theorem precommit_orFree {p : CoreProver E} (h : OrFreeP p) : ∀ w, PTree.precommit p w = .ok ((.none, p), w) := by
  induction h with
  | leaf p => intro w; rfl
  | and s subs h ih =>
    intro w
    have key : ∀ (ps : List (CoreProver E)), (∀ p ∈ ps, p ∈ subs) →
        ∃ vs, PTree.precommitL ps w = .ok ((vs, ps), w) ∧ vs.all Val.isNone = true := by
      intro ps
      induction ps with
      | nil => intro _; exact ⟨[], rfl, rfl⟩
      | cons p ps ihp =>
        intro hsub
        obtain ⟨vs, h1, h2⟩ := ihp fun p hp => hsub p (by simp [hp])
        refine ⟨.none :: vs, ?_, by simp [Val.isNone, h2]⟩
        simp only [PTree.precommitL]
        rw [pm_bind_eq (ih p (hsub p (by simp)) w), pm_bind_eq h1]
        rfl
    obtain ⟨vs, h1, h2⟩ := key subs fun p hp => hp
    simp only [PTree.precommit]
    rw [pm_bind_eq h1]
    simp only [PTree.andPrecommitment, h2, if_true]
    rfl

mutual
theorem plain_blank : ∀ (t : Core E), plainPrecommitment (Tree.blank t) = plainPrecommitment t
  | .leaf s => rfl
  | .and _ subs => by simp only [plainPrecommitment, Tree.blank, plainL_blank subs]
  | .or _ subs => by simp only [plainPrecommitment, Tree.blank, plainL_blank subs]
theorem plainL_blank : ∀ (ts : List (Core E)), plainPrecommitmentL (Tree.blankL ts) = plainPrecommitmentL ts
  | [] => rfl
  | t :: ts => by simp only [plainPrecommitmentL, Tree.blankL, plain_blank t, plainL_blank ts]
end

theorem coreBases_shape {t t' : Core E} (h : Tree.blank t = Tree.blank t') : coreBases t = coreBases t' := by
  have key : ∀ t : Core E, coreBases (Tree.blank t) = coreBases t := by
    intro t
    have h1 := Tree.core_bases t _ (core_blank t)
    rw [bases_core, bases_core] at h1
    exact (Except.ok.inj h1).symm
  rw [← key t, h, key]

theorem table_blank {σ : Store} {t t' : Core E} (h : Tree.blank t = Tree.blank t') : table σ t = table σ t' := by
  have h1 := (shape_blank t t' h).2
  have h2 := coreBases_shape h
  cases t with
  | leaf s =>
    cases t' with
    | leaf s' =>
      simp only [secrets] at h1
      simp only [coreBases] at h2
      simp only [table, h1, h2]
    | and _ _ => simp [Tree.blank] at h
    | or _ _ => simp [Tree.blank] at h
  | and b ts =>
    cases t' with
    | leaf s' => simp [Tree.blank] at h
    | and _ _ => simp only [table, h1, h2]
    | or _ _ => simp [Tree.blank] at h
  | or b ts =>
    cases t' with
    | leaf s' => simp [Tree.blank] at h
    | and _ _ => simp [Tree.blank] at h
    | or _ _ => simp only [table, h1, h2]

theorem orFree_blank {t : Core E} (h : OrFree t) : ∀ t', Tree.blank t' = Tree.blank t → OrFree t' := by
  induction h with
  | rep s =>
    intro t' h
    cases t' with
    | leaf s' => exact .rep s'
    | and _ _ => simp [Tree.blank] at h
    | or _ _ => simp [Tree.blank] at h
  | all b subs _ ih =>
    intro t' h
    cases t' with
    | leaf s' => simp [Tree.blank] at h
    | or _ _ => simp [Tree.blank] at h
    | and b' subs' =>
      simp only [Tree.blank, Tree.and.injEq, true_and] at h
      rw [Tree.blankL_eq, Tree.blankL_eq] at h
      refine .all _ _ fun u hu => ?_
      have : Tree.blank u ∈ List.map Tree.blank subs := by
        rw [← h]; exact List.mem_map.mpr ⟨u, hu, rfl⟩
      obtain ⟨v, hv, e⟩ := List.mem_map.mp this
      exact ih v hv u e.symm

theorem fill_of_blank {f : Sec → Int} {t t' : Core E} (h : Tree.blank t = Tree.blank t') :
    fill f t = fill f t' := by rw [← fill_blank t, h, fill_blank]

/-- A prover and a simulator coincide when the streams are related. -/
theorem prover_coincide {p : CoreProver E} {σ1 : Store} {rng : Nat → Nat} {X : Key → Int}
    (e1 : Primed (FitRep σ1 X) p) (e2 : Honest (fun p _ => FitRep σ1 X p) σ1 p X)
    (hg : Good SolidRep (PTree.stmtOf p)) (hc : Composable σ1 (PTree.stmtOf p)) (hfp : OrFreeP p) {σs : Store}
    (hsee : SameKeys σ1 σs (secrets (PTree.stmtOf p))) (c : Int) (r' : Nat → Nat)
    (hr : ∀ (j : Nat) (e : Sec × Nat), (table σ1 (PTree.stmtOf p))[j]? = some e →
      ((r' j : Nat) : Int) % (e.2 : Int) = ((rng j : Int) + X (σ1.key e.1) * c) % (e.2 : Int)) :
    ∃ com p' resp,
      PTree.internalCommit p none ⟨σ1, rng⟩ = .ok ((com, p'),
        ⟨σ1, fun i => rng (i + (table σ1 (PTree.stmtOf p)).length)⟩) ∧ PTree.stmtOf p' = PTree.stmtOf p ∧
      PTree.computeResponse p' c ⟨σ1, fun i => rng (i + (table σ1 (PTree.stmtOf p)).length)⟩ =
        .ok (resp, ⟨σ1, fun i => rng (i + (table σ1 (PTree.stmtOf p)).length)⟩) ∧
      ∀ t1 : Core E, Tree.blank t1 = Tree.blank (PTree.stmtOf p) →
        ∃ sim : Sim E, Tree.simulate t1 none (some c) ⟨σs, r'⟩ = .ok (sim,
          ⟨σs, fun i => r' (i + (table σ1 (PTree.stmtOf p)).length)⟩) ∧
        sim.commitment = com ∧ sim.challenge = c ∧ sim.responses = resp ∧
        sim.precommitment = plainPrecommitment t1 := by
  obtain ⟨com, p', w2, hcom, hw2, -⟩ := commit_progress (PL := FitRep σ1 X) (fun q hq => hq.1.1) p
    e1 hg hc none ⟨σ1, rng⟩ rfl (by simp)
  have f1 := primed_mono (QL := CorePL X σ1) (fun q hq => hq.2) e1
  have f2 := honest_mono (QL := CorePL X σ1) (fun q hq => hq.2) e2
  have hpre := precommit_orFree hfp ⟨σ1, rng⟩
  obtain ⟨g2, g3, g4, g5, k, g6, g7, g8⟩ := run_law (w := ⟨σ1, rng⟩) (corePL_stab X) (precommitLeaf_core X)
    (fun σ => commitLeaf_core σ X) f1 f2 (apart_core p) hpre hcom
  obtain ⟨⟨q, hq⟩, ρ, _, hresp⟩ := g8
  have hk : k = Tree.blank (PTree.stmtOf p) := by
    have := core_blank (PTree.stmtOf p)
    rw [g6] at this; exact Option.some.inj this
  have hq' : OrdersOK σ1 q (PTree.stmtOf p) := by
    intro x b hx
    exact hq x b (by rw [hk, terms_blank]; exact hx)
  have hcom0 := hcom
  rw [commit_none hfp (orFree_stmtOf hfp) hg] at hcom
  simp only [after] at hcom
  have hcovp := draws_cover hg (orFree_stmtOf hfp) ⟨σ1, rng⟩
  obtain ⟨rfl, hrsp⟩ := commit_given p hfp e1 q hq' _ _ _ _ _ rfl hcovp hcom
  have hr1 := hrsp c ⟨σ1, fun i => rng (i + (table σ1 (PTree.stmtOf p)).length)⟩ rfl
  obtain ⟨r, w3, i1, i2, i3, _⟩ := hresp q hq c _ g2
  rw [hr1] at i1
  injection i1 with i1
  injection i1 with i1 _
  subst i1
  refine ⟨com, p', _, hcom0, g4, hr1, fun t1 ht1 => ?_⟩
  have hg' : Good SolidRep t1 := good_blank hg _ ht1
  have hf1 : OrFree t1 := orFree_blank (orFree_stmtOf hfp) _ ht1
  have hsec1 := (shape_blank _ _ ht1).2
  obtain ⟨sim, w4, hsim, hw4⟩ := simulate_progress _ hg' none (some c) ⟨σs, r'⟩ (by simp)
  have hwfk : WellFormed (Tree.blank t1) := (wf_blank _).mpr (wf_of_good hg')
  obtain ⟨_, l1, l2, _⟩ := simulate_core _ _ (core_blank t1) hwfk (by simp) hsim
  have hsim0 := hsim
  rw [simulate_none hf1 hg'] at hsim
  have htab1 : table σs t1 = table σ1 (PTree.stmtOf p) := by
    rw [table_blank ht1]; exact table_same hsee
  simp only [htab1, after] at hsim
  have hcov1 := draws_cover hg' hf1 ⟨σs, r'⟩
  simp only [htab1] at hcov1
  obtain ⟨rfl, s1, s2, s3⟩ := simulate_given _ hf1 _ _ _ _ _ hcov1 hsim
  have hfill : sim.responses = fill (fun x => (X (σ1.key x) * c + (Dict.get? σ1
      (draws (table σ1 (PTree.stmtOf p)) rng) x).getD 0) % (q (σ1.key x) : Int)) (PTree.stmtOf p) := by
    rw [s2, fill_of_blank ht1]
    refine fill_congr _ fun x hx => ?_
    simp only
    obtain ⟨v, hv⟩ := hcovp x hx
    obtain ⟨e, he, hke, hv'⟩ := draws_shift (σ := σ1) (σs := σs) (f := fun x => X (σ1.key x) * c)
      (table σ1 (PTree.stmtOf p)) rng r' hr x
      (fun e he => hsee e.1 (table_keys e he) x hx) v hv
    rw [hv, hv']
    have : e.2 = q (σ1.key e.1) := table_orders hg hq' e he
    simp only [Option.getD_some]
    rw [this, hke, add_comm]
  have hcom' : sim.commitment = com := by
    have a1 := (recompute_iff _ _ _ _).mpr l2
    have a2 := (recompute_iff _ _ _ _).mpr i3
    rw [hk, ← ht1] at a2
    rw [s1, hfill, a2] at a1
    exact (Except.ok.inj a1).symm
  exact ⟨sim, hsim0, hcom', s1, hfill, s3⟩

/-- Honest and simulated runs coincide when the streams are related. -/
theorem runs_coincide {t : Core E} {d : Dict Int} {w : World} {X : Key → Int} (hs : Solid t)
    (ht : Torsion t) (hd : d.Uniq (heapFor w.store d t)) (hX : Satisfied (heapFor w.store d t) d X t)
    (hc : Composable (heapFor w.store d t) t) (hf : OrFree t) {σs : Store}
    (hsee : SeesSame (heapFor w.store d t) σs (secrets t)) (env : Env E) (c : Int) (r' : Nat → Nat)
    (hr : ∀ (j : Nat) (e : Sec × Nat), (table (heapFor w.store d t) t)[j]? = some e →
      ((r' j : Nat) : Int) % (e.2 : Int) =
        ((w.rng j : Int) + X ((heapFor w.store d t).key e.1) * c) % (e.2 : Int)) :
    ∃ T, honestRun env t d c w = .ok ((.none, T), ⟨heapFor w.store d t,
        fun i => w.rng (i + (table (heapFor w.store d t) t).length)⟩) ∧
      simulatedRun env t c ⟨σs, r'⟩ = .ok ((plainPrecommitment t, T), ⟨σs,
        fun i => r' (i + (table (heapFor w.store d t) t).length)⟩) := by
  obtain ⟨p, t', w1, h, e0, e1, e2, e3⟩ := getProver_satisfied hs ht hd hX
  obtain ⟨hrng, hfp⟩ := getProver_orFree d t hf _ _ _ _ h
  have hfp := hfp p rfl
  generalize hσ : heapFor w.store d t = σ at *
  obtain ⟨σ1, rng1⟩ := w1
  simp only at e0 hrng
  subst e0; subst hrng
  simp only at e1 e2
  have hg : Good SolidRep (PTree.stmtOf p) := good_blank (good_of_solid t hs) _ e3
  have htab : table σ1 (PTree.stmtOf p) = table σ1 t := table_blank e3
  have hsec : secrets (PTree.stmtOf p) = secrets t := (shape_blank _ _ e3).2
  have hpre := precommit_orFree hfp ⟨σ1, w.rng⟩
  have hcp := prover_coincide (rng := w.rng) e1 e2 hg (composable_blank hc _ e3) hfp (σs := σs)
    (by rw [hsec]; exact hsee.2) c r' (by rw [htab]; exact hr)
  rw [htab] at hcp
  obtain ⟨com, p', resp, hcom0, _, hr1, hsims⟩ := hcp
  have ht1 : Tree.blank (Tree.setSimulated true t) = Tree.blank t := by cases t <;> rfl
  have hsec1 := (shape_blank _ _ ht1).2
  obtain ⟨sim, hsim0, hcom', s1, hfill, s3⟩ := hsims (Tree.setSimulated true t) (ht1.trans e3.symm)
  obtain ⟨id, _, hid, _⟩ := Tree.proofId_isOk (σ := σ1) (skel_core (PTree.stmtOf p))
  have hid' : Tree.proofId σs (Tree.setSimulated true t) = .ok id := by
    rw [← hid]
    refine ((Tree.proofId_eq_iff (skel_core (PTree.stmtOf p)) (skel_core (Tree.setSimulated true t))
      (secretVars_core _) (secretVars_core _)).mpr ⟨?_, ?_⟩).symm
    · exact ((shape_blank _ _ e3).1).trans ((shape_blank _ _ ht1).1).symm
    · have : SamePattern ((secrets t).map σ1.name) ((secrets t).map σs.name) := hsee.1
      show SamePattern ((secrets _).map σ1.name) ((secrets _).map σs.name)
      rw [hsec, hsec1]; exact this
  refine ⟨⟨env.digest id, com, c, sim.responses⟩, ?_, ?_⟩
  · unfold honestRun
    rw [pm_bind_eq h]
    simp only
    rw [pm_bind_eq hpre]
    simp only
    have hcm : PTree.commit env p ⟨σ1, w.rng⟩ = .ok (((env.digest id, com), p'),
        ⟨σ1, fun i => w.rng (i + (table σ1 t).length)⟩) := by
      unfold PTree.commit
      rw [pm_getStore_bind, hid, pm_liftE_bind, pm_bind_eq hcom0]
      rfl
    rw [pm_bind_eq hcm]
    simp only
    rw [pm_bind_eq hr1, hfill]
    rfl
  · unfold simulatedRun simulateTop
    have : (do
        let t1 ← Tree.prepareSim (Tree.setSimulated true t)
        let tr ← Tree.simulate t1 none (some c)
        let σ ← getStore
        let id ← liftE (Tree.proofId σ t1)
        pure (tr, env.digest id, t1) : PM (Sim E × List UInt8 × Core E)) ⟨σs, r'⟩ =
        .ok ((sim, env.digest id, Tree.setSimulated true t),
          ⟨σs, fun i => r' (i + (table σ1 t).length)⟩) := by
      rw [pm_bind_eq (prepareSim_core _ _), pm_bind_eq hsim0, pm_getStore_bind]
      simp only
      rw [hid', pm_liftE_bind]
      rfl
    rw [pm_bind_eq this]
    simp only [pm_pure_iff, s1, s3, hcom', ← plain_blank (Tree.setSimulated true t), ht1, plain_blank]

end Zksk
