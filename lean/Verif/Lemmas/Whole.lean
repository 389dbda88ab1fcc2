import Verif.Lemmas.Relabel
import Verif.Lemmas.Select

/-! # Extended statements that construct only representations, in both models -/

set_option linter.unusedSectionVars false

namespace Zksk

variable {E : Type} [AddCommGroup E] [DecidableEq E]

open Spec

/-! ### Provers of compositions of representations -/

mutual
/-- Every or-prover has a simulation for each clause but one. -/
def Whole : CoreProver E → Prop
  | .leaf _ => True
  | .and _ subs => WholeL subs
  | .or _ i stmts sub sims => i < stmts.length ∧ sims.length + 1 = stmts.length ∧ Whole sub
/-- `Whole` for lists. -/
def WholeL : List (CoreProver E) → Prop
  | [] => True
  | p :: ps => Whole p ∧ WholeL ps
end

mutual
theorem whole_precommit : ∀ (p : CoreProver E), Whole p → ∀ w : World, ∃ v, PTree.precommit p w = .ok ((v, p), w)
  | .leaf p, _, w => ⟨.none, rfl⟩
  | .and s subs, h, w => by
    obtain ⟨vs, hv⟩ := whole_precommitL subs h w
    refine ⟨PTree.andPrecommitment vs, ?_⟩
    simp only [PTree.precommit]
    rw [pm_bind_eq hv]; rfl
  | .or s i stmts sub sims, h, w => by
    obtain ⟨hi, hn, hs⟩ := h
    obtain ⟨v, hv⟩ := whole_precommit sub hs w
    have ho := orSlots_eq i v (sims.map Sim.precommitment) (by rw [List.length_map]; omega)
    rw [List.length_map, hn] at ho
    refine ⟨if ((sims.map Sim.precommitment).insertIdx i v).any Val.truthy
        then .list ((sims.map Sim.precommitment).insertIdx i v) else .none, ?_⟩
    simp only [PTree.precommit]
    rw [pm_bind_eq hv]
    simp only [ho]; rfl
theorem whole_precommitL : ∀ (ps : List (CoreProver E)), WholeL ps → ∀ w : World,
    ∃ vs, PTree.precommitL ps w = .ok ((vs, ps), w)
  | [], _, w => ⟨[], rfl⟩
  | p :: ps, h, w => by
    obtain ⟨v, hv⟩ := whole_precommit p h.1 w
    obtain ⟨vs, hvs⟩ := whole_precommitL ps h.2 w
    refine ⟨v :: vs, ?_⟩
    simp only [PTree.precommitL]
    rw [pm_bind_eq hv, pm_bind_eq hvs]; rfl
end

theorem setup_length (i : Nat) : ∀ (ts : List (Core E)) (k : Nat) (ts' : List (Core E)) (sims : List (Sim E)) (w w' : World),
    PTree.setupSimulations i ts k w = .ok ((ts', sims), w') →
      sims.length + (if k ≤ i ∧ i < k + ts.length then 1 else 0) = ts.length
  | [], k, ts', sims, w, w', h => by
    simp only [PTree.setupSimulations] at h
    rw [pm_pure_iff, Prod.mk.injEq, Prod.mk.injEq] at h
    obtain ⟨⟨rfl, rfl⟩, rfl⟩ := h
    simp
  | t :: ts, k, ts', sims, w, w', h => by
    simp only [PTree.setupSimulations] at h
    split at h
    · obtain ⟨⟨us, ss⟩, w1, h1, h⟩ := pm_bind.mp h
      have ih := setup_length i ts (k + 1) us ss w w1 h1
      simp only at h
      rw [pm_pure_iff, Prod.mk.injEq, Prod.mk.injEq] at h
      obtain ⟨⟨rfl, rfl⟩, rfl⟩ := h
      rename_i hk
      subst hk
      rw [if_neg (by omega)] at ih
      simp only [List.length_cons]
      rw [if_pos (by omega)]
      omega
    · obtain ⟨t1, w1, h1, h⟩ := pm_bind.mp h
      obtain ⟨s1, w2, h2, h⟩ := pm_bind.mp h
      obtain ⟨⟨us, ss⟩, w3, h3, h⟩ := pm_bind.mp h
      have ih := setup_length i ts (k + 1) us ss w2 w3 h3
      simp only at h
      rw [pm_pure_iff, Prod.mk.injEq, Prod.mk.injEq] at h
      obtain ⟨⟨rfl, rfl⟩, rfl⟩ := h
      rename_i hk
      simp only [List.length_cons]
      split
      · rw [if_pos (by omega)] at ih; omega
      · rw [if_neg (by omega)] at ih; omega

theorem orLoop_found (acts : List (PM (Option (CoreProver E) × Core E))) : ∀ (fuel : Nat) (possible : List Nat)
    (ts us : List (Core E)) (w w' : World) (i : Nat) (p : CoreProver E),
    PTree.orLoop acts fuel possible ts w = .ok ((some (i, p), us), w') →
      ∃ act w1 w2 t', acts[i]? = some act ∧ act w1 = .ok ((some p, t'), w2) ∧ us.length = ts.length ∧
        (i < ts.length → us[i]? = some t')
  | 0, possible, ts, us, w, w', i, p, h => by
    simp only [PTree.orLoop] at h
    rw [pm_pure_iff, Prod.mk.injEq, Prod.mk.injEq] at h
    cases h.1.1
  | fuel + 1, possible, ts, us, w, w', i, p, h => by
    simp only [PTree.orLoop] at h
    by_cases hemp : possible.isEmpty = true
    · rw [if_pos hemp, pm_pure_iff, Prod.mk.injEq, Prod.mk.injEq] at h
      cases h.1.1
    · rw [if_neg hemp] at h
      obtain ⟨j, w1, _, h⟩ := pm_bind.mp h
      cases ha : acts[j]? with
      | none => rw [ha] at h; exact (raise_ne.mp h).elim
      | some act =>
        rw [ha] at h
        simp only at h
        obtain ⟨⟨p?, t'⟩, w2, h2, h⟩ := pm_bind.mp h
        cases p? with
        | some q =>
          simp only at h
          rw [pm_pure_iff, Prod.mk.injEq, Prod.mk.injEq] at h
          obtain ⟨⟨h1, rfl⟩, rfl⟩ := h
          cases h1
          exact ⟨act, w1, w2, t', ha, h2, by simp, fun hi => by simp [hi]⟩
        | none =>
          simp only at h
          obtain ⟨act', w3, w4, t'', e1, e2, e3, e4⟩ := orLoop_found acts fuel (possible.erase j) _ us w2 w' i p h
          rw [List.length_set] at e3 e4
          exact ⟨act', w3, w4, t'', e1, e2, e3, e4⟩

theorem getProverL_whole {d : Dict Int} : ∀ {ts : List (Core E)},
    (∀ t ∈ ts, ∀ (w w' : World) (p : CoreProver E) (t' : Core E), PTree.getProver t d w = .ok ((some p, t'), w') →
      Whole p ∧ PTree.stmtOf p = t') →
    ∀ (w w' : World) (ps : List (Option (CoreProver E))) (ts' : List (Core E)) (qs : List (CoreProver E)),
      PTree.getProverL ts d w = .ok ((ps, ts'), w') → PTree.allSome ps = some qs → WholeL qs ∧ PTree.stmtOfL qs = ts'
  | [], _, w, w', ps, ts', qs, h, hq => by
    simp only [PTree.getProverL] at h
    rw [pm_pure_iff, Prod.mk.injEq, Prod.mk.injEq] at h
    obtain ⟨⟨rfl, rfl⟩, rfl⟩ := h
    cases hq
    exact ⟨trivial, rfl⟩
  | t :: ts, ih, w, w', ps, ts', qs, h, hq => by
    simp only [PTree.getProverL] at h
    obtain ⟨⟨p?, t1⟩, w1, h1, h⟩ := pm_bind.mp h
    simp only at h
    obtain ⟨⟨ps1, ts1⟩, w2, h2, h⟩ := pm_bind.mp h
    simp only at h
    rw [pm_pure_iff, Prod.mk.injEq, Prod.mk.injEq] at h
    obtain ⟨⟨rfl, rfl⟩, rfl⟩ := h
    cases p? with
    | none => cases hq
    | some p =>
      simp only [PTree.allSome] at hq
      cases ha : PTree.allSome ps1 with
      | none => rw [ha] at hq; cases hq
      | some qs1 =>
        rw [ha] at hq
        cases hq
        obtain ⟨e1, e2⟩ := ih t (by simp) _ _ _ _ h1
        obtain ⟨f1, f2⟩ := getProverL_whole (fun t ht => ih t (by simp [ht])) _ _ _ _ _ h2 ha
        exact ⟨⟨e1, f1⟩, by simp only [PTree.stmtOfL, e2, f2]⟩

theorem getProver_whole (d : Dict Int) (t : Core E) : ∀ (w w' : World) (p : CoreProver E) (t' : Core E),
    PTree.getProver t d w = .ok ((some p, t'), w') → Whole p ∧ PTree.stmtOf p = t' := by
  induction t using Tree.ind with
  | leaf s =>
    intro w w' p t' h
    have := getProver_leaf_marks h
    refine ⟨?_, this.2.2 p rfl⟩
    simp only [PTree.getProver] at h
    obtain ⟨⟨q?, s'⟩, w1, h1, h⟩ := pm_bind.mp h
    rw [pm_pure_iff, Prod.mk.injEq, Prod.mk.injEq] at h
    cases q? with
    | none => cases h.1.1
    | some q =>
      have := h.1.1
      simp only [Option.map_some, Option.some.injEq] at this
      subst this
      trivial
  | and s subs ih =>
    intro w w' p t' h
    simp only [PTree.getProver] at h
    rw [pm_getStore_bind, pm_setStore_bind] at h
    cases s with
    | true =>
      simp only [if_true] at h
      rw [pm_pure_iff, Prod.mk.injEq, Prod.mk.injEq] at h
      cases h.1.1
    | false =>
      simp only [Bool.false_eq_true, if_false] at h
      obtain ⟨⟨ps, ts⟩, w1, h1, h⟩ := pm_bind.mp h
      cases ha : PTree.allSome ps with
      | none => simp only [ha] at h; exact (raise_ne.mp h).elim
      | some qs =>
        simp only [ha] at h
        rw [pm_pure_iff, Prod.mk.injEq, Prod.mk.injEq] at h
        obtain ⟨⟨h2, rfl⟩, rfl⟩ := h
        cases h2
        obtain ⟨e1, e2⟩ := getProverL_whole ih _ _ _ _ _ h1 ha
        exact ⟨e1, by simp only [PTree.stmtOf, e2]⟩
  | or s subs ih =>
    intro w w' p t' h
    simp only [PTree.getProver] at h
    rw [pm_getStore_bind, pm_setStore_bind] at h
    cases s with
    | true =>
      simp only [if_true] at h
      rw [pm_pure_iff, Prod.mk.injEq, Prod.mk.injEq] at h
      cases h.1.1
    | false =>
      simp only [Bool.false_eq_true, if_false] at h
      obtain ⟨⟨r, us⟩, w1, h1, h⟩ := pm_bind.mp h
      cases r with
      | none =>
        simp only at h
        rw [pm_pure_iff, Prod.mk.injEq, Prod.mk.injEq] at h
        cases h.1.1
      | some ip =>
        obtain ⟨i, q⟩ := ip
        simp only at h
        obtain ⟨⟨us2, sims⟩, w2, h2, h⟩ := pm_bind.mp h
        simp only at h
        rw [pm_pure_iff, Prod.mk.injEq, Prod.mk.injEq] at h
        obtain ⟨⟨h3, rfl⟩, rfl⟩ := h
        cases h3
        have hus := setup_core i us us2 0 sims w1 w2 h2
        subst hus
        obtain ⟨act, wa, wb, t1, e1, e2, e3, e4⟩ := orLoop_found _ _ _ _ _ _ _ _ _ h1
        rw [acts_get] at e1
        cases hi : subs[i]? with
        | none => rw [hi] at e1; cases e1
        | some u =>
          rw [hi] at e1
          cases e1
          have hlt : i < subs.length := (List.getElem?_eq_some_iff.mp hi).1
          obtain ⟨f1, f2⟩ := ih u (List.mem_of_getElem? hi) _ _ _ _ e2
          have hl := setup_length i us2 0 us2 sims w1 w2 h2
          rw [if_pos (by omega)] at hl
          refine ⟨⟨by omega, by omega, f1⟩, ?_⟩
          have h5 := e4 hlt
          obtain ⟨h6, h7⟩ := List.getElem?_eq_some_iff.mp h5
          simp only [PTree.stmtOf, f2]
          rw [← h7, List.set_getElem_self]

/-! ### Representations as general leaves -/

theorem hom_dlrep : Hom (E := E) (Leaf.dlrep : DLRep E → Leaf E) where
  secretVars _ := rfl
  bases _ := rfl
  simulated _ := rfl
  setSimulated _ _ := rfl
  proofId _ _ _ := rfl
  freshVerifier _ := rfl
  process _ _ _ := rfl
  fullValidate _ := rfl
  consistency _ _ _ _ := rfl
  recompute _ _ _ := rfl
  prepareSim l := by simp only [StmtOps.prepareSim, map_eq_pure_bind]
  simulate _ _ _ := rfl

theorem proverHom_dlrep : ProverHom (E := E) (Leaf.dlrep : DLRep E → Leaf E)
    (LeafProver.dlrep : DLRepProver E → LeafProver E) where
  stmtOf _ := rfl
  getProver l d := by simp only [ProverOps.getProver, map_eq_pure_bind]
  precommit p := by simp only [ProverOps.precommit, map_eq_pure_bind, pure_bind]
  internalCommit p d := by simp only [ProverOps.internalCommit, map_eq_pure_bind]
  computeResponse _ _ := rfl

theorem outerOf_inner (s : Ext E) : (outerOf s).inner = s.inner.map (relabel Leaf.dlrep) := by
  unfold Outer.inner Ext.inner
  cases h : s.constructed <;> simp only [outerOf, h, Option.map_some, Option.map_none] <;> rfl

theorem outerOf_fullConstruct (σ : Store) (s : Ext E) (v : Val E) :
    (outerOf s).fullConstruct σ v = (s.fullConstruct σ v).map outerOf := by
  unfold Outer.fullConstruct Ext.fullConstruct
  simp only [outerOf, bind, Except.bind]
  cases s.spec.construct σ v <;> rfl

theorem liftE_map {α β : Type} (f : α → β) (x : Except Err α) : liftE (x.map f) = f <$> liftE x := by
  funext w
  cases x <;> rfl

theorem outerOf_process (σ : Store) (s : Ext E) (v : Val E) :
    (outerOf s).process σ v = (s.process σ v).map outerOf := by
  unfold Outer.process Ext.process
  rw [outerOf_fullConstruct]
  cases h : s.fullConstruct σ v with
  | error e => rfl
  | ok s' =>
    simp only [Except.map, bind, Except.bind, outerOf]
    cases h' : s'.constructed with
    | none => rfl
    | some t => simp only [Option.map_some, relabel_freshVerifier hom_dlrep]

theorem hom_asNested : Hom (E := E) (asNested : Leaf E → NLeaf E (Leaf E)) where
  secretVars l := by
    cases l with
    | dlrep s => rfl
    | ext s =>
      show (outerOf s).inner.bind _ = s.inner.bind _
      rw [outerOf_inner]
      cases s.inner with
      | error e => rfl
      | ok t => exact relabel_secretVars hom_dlrep t
  bases l := by
    cases l with
    | dlrep s => rfl
    | ext s =>
      show (outerOf s).inner.bind _ = s.inner.bind _
      rw [outerOf_inner]
      cases s.inner with
      | error e => rfl
      | ok t => exact relabel_bases hom_dlrep t
  simulated l := by cases l <;> rfl
  setSimulated v l := by cases l <;> rfl
  proofId σ m l := by
    cases l with
    | dlrep s => rfl
    | ext s =>
      show (outerOf s).proofId σ m = s.proofId σ m
      unfold Outer.proofId Ext.proofId
      cases h : s.constructed <;> simp only [outerOf, h, Option.map_some, Option.map_none,
        relabel_proofIdWith hom_dlrep]
  freshVerifier l := by cases l <;> rfl
  process σ l v := by
    cases l with
    | dlrep s => rfl
    | ext s =>
      show ((outerOf s).process σ v).map NLeaf.outer = ((s.process σ v).map Leaf.ext).map asNested
      rw [outerOf_process]
      cases s.process σ v <;> rfl
  fullValidate l := by cases l <;> rfl
  consistency σ l r d := by
    cases l with
    | dlrep s => rfl
    | ext s =>
      show (outerOf s).consistency σ r d = s.consistency σ r d
      unfold Outer.consistency Ext.consistency
      cases h : s.verifier <;> simp only [outerOf, h, Option.map_some, Option.map_none, relabel_consistency hom_dlrep]
  recompute l c r := by
    cases l with
    | dlrep s => rfl
    | ext s =>
      show (outerOf s).inner.bind _ = s.inner.bind _
      rw [outerOf_inner]
      cases s.inner with
      | error e => rfl
      | ok t => exact relabel_recompute hom_dlrep t c r
  prepareSim l := by
    cases l with
    | dlrep s => simp only [asNested, StmtOps.prepareSim, map_eq_pure_bind, bind_assoc, pure_bind]
    | ext s =>
      show (do pure (NLeaf.outer (← (outerOf s).prepareSim))) = asNested <$> (do pure (Leaf.ext (← s.prepareSim)))
      have h : (outerOf s).prepareSim = outerOf <$> s.prepareSim := by
        unfold Outer.prepareSim Ext.prepareSim
        simp only [outerOf_fullConstruct, liftE_map, map_eq_pure_bind, bind_assoc]
      simp only [h, map_eq_pure_bind, bind_assoc, pure_bind]
      rfl
  simulate l d c := by
    cases l with
    | dlrep s => rfl
    | ext s =>
      show (outerOf s).simulate d c = s.simulate d c
      unfold Outer.simulate Ext.simulate
      rw [outerOf_inner, liftE_map]
      simp only [map_eq_pure_bind, bind_assoc, pure_bind, relabel_simulate hom_dlrep]

/-- The loop over the provers of the constructed statement changes nothing if that has no extended parts. -/
theorem precommitSubs_whole : ∀ (ps : List (CoreProver E)), WholeL ps → ∀ w : World,
    OuterProver.precommitSubs (relabelPL Leaf.dlrep LeafProver.dlrep ps : List (StmtProver E)) w =
      .ok (relabelPL Leaf.dlrep LeafProver.dlrep ps, w)
  | [], _, w => rfl
  | p :: ps, h, w => by
    obtain ⟨v, hv⟩ := whole_precommit p h.1 w
    have hp : PTree.precommit (relabelP Leaf.dlrep LeafProver.dlrep p : StmtProver E) w =
        .ok ((v, relabelP Leaf.dlrep LeafProver.dlrep p), w) := by
      rw [relabel_precommit proverHom_dlrep, map_eq_pure_bind, pm_bind_eq hv]; rfl
    simp only [relabelPL, OuterProver.precommitSubs, hp]
    rw [pm_bind_eq (precommitSubs_whole ps h.2 w)]
    rfl

theorem precommitInner_whole (p? : Option (CoreProver E)) (h : ∀ p, p? = some p → Whole p) (w : World) :
    OuterProver.precommitInner (p?.map (relabelP Leaf.dlrep LeafProver.dlrep) : Option (StmtProver E)) w =
      .ok (p?.map (relabelP Leaf.dlrep LeafProver.dlrep), w) := by
  cases p? with
  | none => rfl
  | some p =>
    cases p with
    | leaf q => rfl
    | or s i stmts sub sims => rfl
    | and s subs =>
      simp only [Option.map_some, relabelP, OuterProver.precommitInner]
      rw [pm_bind_eq (precommitSubs_whole subs (h _ rfl) w)]
      rfl

theorem proverHom_asNested : ProverHom (E := E) (asNested : Leaf E → NLeaf E (Leaf E))
    (proverOf : LeafProver E → NLeafProver E (Leaf E) (LeafProver E)) where
  stmtOf p := by cases p <;> rfl
  getProver l d := by
    cases l with
    | dlrep s =>
      simp only [asNested, ProverOps.getProver, map_eq_pure_bind, bind_assoc, pure_bind]
      refine bind_congr fun x => ?_
      obtain ⟨p?, s'⟩ := x
      cases p? <;> rfl
    | ext s =>
      funext w
      rfl
  precommit p := by
    cases p with
    | dlrep p =>
      simp only [proverOf, ProverOps.precommit, map_eq_pure_bind, bind_assoc, pure_bind]
    | ext p =>
      have key : OuterProver.precommit (P := LeafProver E)
          { stmt := outerOf p.stmt, secretValues := p.secretValues,
            constructed := p.constructed.map (relabelP Leaf.dlrep LeafProver.dlrep) } =
          (fun x : Val E × ExtProver E => (x.1,
            ({ stmt := outerOf x.2.stmt, secretValues := x.2.secretValues,
               constructed := x.2.constructed.map (relabelP Leaf.dlrep LeafProver.dlrep) } :
              OuterProver E (Leaf E) (LeafProver E)))) <$> ExtProver.precommit p := by
        unfold OuterProver.precommit ExtProver.precommit
        simp only [outerOf_fullConstruct, liftE_map, map_eq_pure_bind, bind_assoc, pure_bind, outerOf_inner,
          relabel_getProver hom_dlrep proverHom_dlrep]
        refine bind_congr fun v => bind_congr fun σ => bind_congr fun s' => bind_congr fun t => ?_
        funext w
        cases hg : (PTree.getProver t p.secretValues : PM (Option (CoreProver E) × Core E)) w with
        | error e =>
          show Except.bind _ _ = Except.bind _ _
          rw [hg]; rfl
        | ok x =>
          obtain ⟨⟨p?, t'⟩, w'⟩ := x
          rw [pm_bind_eq hg, pm_bind_eq hg]
          have hw : ∀ q, p? = some q → Whole q ∧ PTree.stmtOf q = t' := by
            rintro q rfl
            exact getProver_whole _ _ _ _ _ _ hg
          simp only [relabelR]
          rw [pm_bind_eq (precommitInner_whole p? (fun q hq => (hw q hq).1) w')]
          cases p? with
          | none => rfl
          | some q =>
            simp only [Option.map_some, relabel_stmtOf proverHom_dlrep, (hw q rfl).2]
            rfl
      simp only [proverOf, ProverOps.precommit, key, map_eq_pure_bind, bind_assoc, pure_bind]
  internalCommit p d := by
    cases p with
    | dlrep p =>
      simp only [proverOf, ProverOps.internalCommit, map_eq_pure_bind, bind_assoc, pure_bind]
    | ext p =>
      obtain ⟨s, vals, cp⟩ := p
      obtain ⟨spec, sim, pc, co, ve⟩ := s
      cases co with
      | none => rfl
      | some t =>
        cases cp with
        | none => rfl
        | some cp =>
          simp only [proverOf, ProverOps.internalCommit, OuterProver.internalCommit, ExtProver.internalCommit,
            Option.map_some, relabel_internalCommit hom_dlrep proverHom_dlrep, map_eq_pure_bind, bind_assoc, pure_bind]
  computeResponse p c := by
    cases p with
    | dlrep p => rfl
    | ext p =>
      obtain ⟨s, vals, cp⟩ := p
      cases cp with
      | none => rfl
      | some cp =>
        simp only [proverOf, ProverOps.computeResponse, OuterProver.computeResponse, ExtProver.computeResponse,
          Option.map_some, relabel_computeResponse proverHom_dlrep]

end Zksk
