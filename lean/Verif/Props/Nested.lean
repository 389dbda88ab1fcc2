import Verif.Lemmas.Nested
import Verif.Lemmas.Whole
import Verif.Props.NotEqualComplete

/-! # C91: extended statements that construct extended statements -/

set_option linter.unusedSectionVars false

namespace Zksk.Props

open Spec

variable {E : Type} [AddCommGroup E] [DecidableEq E]

/-- After a new verifier has received a precommitment (or none) there is a part whose responses it never finds
consistent. -/
theorem nests_silent {s : Outer E (Leaf E)} (hs : Nests s) {t : Tree (NLeaf E (Leaf E))} (ht : Part t (.outer s))
    {σ : Store} {v : Val E} {t1 : Tree (NLeaf E (Leaf E))}
    (h : t1 = t.freshVerifier ∨ Tree.process σ t.freshVerifier v = .ok t1) : ∃ l, Part t1 l ∧ Silent (E := E) l := by
  have h0 : Silent (E := E) (StmtOps.freshVerifier (NLeaf.outer s)) := fun _ _ _ _ hc => by cases hc
  have hp := part_freshVerifier ht
  rcases h with rfl | h
  · exact ⟨_, hp, h0⟩
  · obtain ⟨l', hl', hor⟩ := part_process hp h
    refine ⟨l', hl', ?_⟩
    rcases hor with rfl | ⟨w, hw⟩
    · exact h0
    · simp only [StmtOps.freshVerifier, StmtOps.process, Outer.process, Outer.fullConstruct, bind, Except.bind] at hw
      cases hu : s.spec.construct σ w with
      | error e => rw [hu] at hw; cases hw
      | ok u =>
        rw [hu] at hw
        cases hw
        obtain ⟨e, he⟩ := hs σ w u hu
        intro σ' r d d' hc
        exact consistency_silent (part_freshVerifier he) (fun _ _ _ _ hc => by cases hc) σ' r d d' hc

/-- **C91** is violated: let a statement contain, at any place, an extended statement that constructs a composition
with an extended part.  Then `verify()` raises an exception for every proof, whoever made it. -/
theorem C91_never_verified (s : Outer E (Leaf E)) (hs : Nests s) (t : Tree (NLeaf E (Leaf E))) (ht : Part t (.outer s))
    (env : Env E) (σ : Store) (nizk : NIZK E) (message : String) : ∃ e, verify env σ t nizk message = .error e := by
  unfold verify
  cases h1 : digestPrecommitment σ t.freshVerifier nizk.precommitment with
  | error e => exact ⟨e, rfl⟩
  | ok t1 =>
    simp only [bind, Except.bind]
    cases h2 : checkStatement env σ t1 nizk.stmtHash with
    | error e => exact ⟨e, rfl⟩
    | ok id =>
      obtain ⟨l, hl, hsil⟩ := nests_silent (t1 := t1) hs ht (σ := σ) (v := nizk.precommitment) (by
        unfold digestPrecommitment at h1
        split at h1
        · cases h1; exact .inl rfl
        · exact .inr h1)
      obtain ⟨e, he⟩ := preVerification_silent hl hsil σ nizk.responses
      exact ⟨e, by simp only [he]⟩

/-- **C91** The same for conversations: with such a statement on the verifier's side, no conversation ends with a
verdict. -/
theorem C91_no_conversation (s : Outer E (Leaf E)) (hs : Nests s) (t : Tree (NLeaf E (Leaf E))) (ht : Part t (.outer s))
    (env : Env E) (σv : Store) (p : PTree E (NLeaf E (Leaf E)) (NLeafProver E (Leaf E) (LeafProver E))) (w : World) :
    ∃ e, sigmaProtocol env σv t p w = .error e := by
  unfold sigmaProtocol
  refine bind_error fun x w1 _ => ?_
  refine bind_error fun t1 w2 h1 => ?_
  refine bind_error fun y w3 _ => ?_
  refine bind_error fun c w4 _ => ?_
  refine bind_error fun r w5 _ => ?_
  obtain ⟨h1, -⟩ := liftE_iff.mp h1
  obtain ⟨l, hl, hsil⟩ := nests_silent hs ht (.inr h1)
  obtain ⟨e, he⟩ := preVerification_silent hl hsil σv r
  refine ⟨e, ?_⟩
  simp only [verifyResponse, he]
  rfl

/-- **C91** Nor can such a statement be simulated, if the extended part is made by `construct_stmt`: `simulate()` raises,
hence such a statement cannot be among the clauses of a disjunction that are simulated. -/
theorem C91_no_simulation (s : Outer E (Leaf E)) (hs : NestsNew s) (t : Tree (NLeaf E (Leaf E))) (ht : Part t (.outer s))
    (env : Env E) (w : World) :
    (∀ c, ∃ e, simulateTop env t c w = .error e) ∧
    ∀ d c, ∃ e, (do let t1 ← Tree.prepareSim t; Tree.simulate t1 d c : PM (Sim E)) w = .error e := by
  have key : ∀ (s : Outer E (Leaf E)) (_ : NestsNew s) (t : Tree (NLeaf E (Leaf E))) (_ : Part t (.outer s)) (w w1 : World)
      (t1 : Tree (NLeaf E (Leaf E))), Tree.prepareSim t w = .ok (t1, w1) →
      ∀ d c w, ∃ e, Tree.simulate t1 d c w = .error e := by
    intro s hs t ht w w1 t1 h
    obtain ⟨l', w2, w3, hl', hp⟩ := part_prepareSim ht h
    refine simulate_broken hl' ?_
    simp only [StmtOps.prepareSim] at hp
    obtain ⟨s', w4, hs', hp⟩ := pm_bind.mp hp
    rw [pm_pure_iff] at hp
    obtain ⟨rfl, rfl⟩ := Prod.mk.injEq .. ▸ hp
    unfold Outer.prepareSim at hs'
    obtain ⟨v, w5, -, hs'⟩ := pm_bind.mp hs'
    rw [pm_getStore_bind] at hs'
    obtain ⟨hs', -⟩ := liftE_iff.mp hs'
    simp only [Outer.fullConstruct, bind, Except.bind] at hs'
    cases hu : s.spec.construct w5.store v with
    | error e => rw [hu] at hs'; cases hs'
    | ok u =>
      rw [hu] at hs'
      injection hs' with hs'
      subst hs'
      obtain ⟨e, he, hn⟩ := hs _ _ _ hu
      have hb : Broken (E := E) (Leaf.ext e) := by
        refine ⟨⟨.attributeError, ?_⟩, fun d c w => ⟨.attributeError, ?_⟩⟩
        · simp only [StmtOps.secretVars, Ext.inner, hn]; rfl
        · simp only [StmtOps.simulate, Ext.simulate, Ext.inner, hn]; rfl
      refine ⟨?_, ?_⟩
      · obtain ⟨e, he⟩ := secretVars_broken he hb
        exact ⟨e, by simp only [StmtOps.secretVars, Outer.inner, bind, Except.bind, he]⟩
      · intro d c w
        simp only [StmtOps.simulate, Outer.simulate, Outer.inner]
        exact bind_error fun t w' ht => by
          obtain ⟨ht, -⟩ := liftE_iff.mp ht
          injection ht with ht
          subst ht
          exact bind_error fun tr w'' htr => by
            obtain ⟨e, he⟩ := simulate_broken he hb d c w'
            rw [he] at htr; cases htr
  refine ⟨fun c => ?_, fun d c => ?_⟩
  · unfold simulateTop
    obtain ⟨l', hl', hor⟩ := mem_setSimulated true ht
    obtain ⟨s', rfl, hs'⟩ : ∃ s', l' = .outer s' ∧ NestsNew s' := by
      rcases hor with rfl | rfl
      · exact ⟨s, rfl, hs⟩
      · exact ⟨{ s with simulated := true }, rfl, hs⟩
    exact bind_error fun t1 w1 h1 => bind_error fun tr w2 h2 => by
      obtain ⟨e, he⟩ := key s' hs' _ hl' _ _ _ h1 none c w1
      rw [he] at h2; cases h2
  · exact bind_error fun t1 w1 h1 => key s hs t ht _ _ _ h1 d c w1

theorem gate_asNested : ∀ t : Stmt E, (relabel asNested t).gate = t.gate
  | .leaf (.dlrep _) => rfl
  | .leaf (.ext s) => by
    obtain ⟨spec, sim, pc, co, ve⟩ := s
    cases ve with
    | none => rfl
    | some v => cases v <;> rfl
  | .and _ _ => rfl
  | .or _ _ => rfl

/-- **C91** (the part that holds) Extended statements that construct compositions of representations: in any composition
with them `prove()`, `simulate()` and `verify()` do what `Model/Ext` and `Model/Prover` say, so all theorems about
these hold of the code with its loop over the provers of constructed statements (`zksk/extended.py:197-201`), too. -/
theorem C91_representations_partial (env : Env E) (t : Stmt E) :
    (∀ d message, prove (NLeafProver E (Leaf E) (LeafProver E)) env (relabel asNested t) d message =
      (fun x => (x.1, relabel asNested x.2)) <$> prove (LeafProver E) env t d message) ∧
    (∀ σv (p : StmtProver E), sigmaProtocol env σv (relabel asNested t) (relabelP asNested proverOf p) =
      sigmaProtocol env σv t p) ∧
    (∀ c, simulateTop env (relabel asNested t) c =
      (fun x => (x.1, x.2.1, relabel asNested x.2.2)) <$> simulateTop env t c) ∧
    ∀ σ nizk message, verify env σ (relabel asNested t) nizk message = verify env σ t nizk message := by
  refine ⟨fun d message => relabel_prove hom_asNested proverHom_asNested env t d message, fun σv p => ?_, fun c => ?_,
    fun σ nizk message => relabel_verify hom_asNested env σ t nizk message⟩
  · simp only [sigmaProtocol, relabel_precommit proverHom_asNested, map_eq_pure_bind, bind_assoc, pure_bind,
      relabel_freshVerifier hom_asNested, relabel_process hom_asNested, liftE_map, PTree.commit, relabel_stmtOf proverHom_asNested,
      relabel_proofId hom_asNested, relabel_internalCommit hom_asNested proverHom_asNested, sendChallenge, checkStatement,
      gate_asNested, relabel_computeResponse proverHom_asNested, relabel_verifyResponse hom_asNested]
  simp only [simulateTop, relabel_setSimulated hom_asNested, relabel_prepareSim hom_asNested,
    relabel_simulate hom_asNested, relabel_proofId hom_asNested, map_eq_pure_bind, bind_assoc, pure_bind]

/-! ### An example -/

/-- A primitive made of others: `PK{x: 2 = x·1 and x·3 ≠ 5}`, written as a class whose `construct_stmt` returns
`DLRep(2, x * 1) & DLNotEqual((2, 1), (5, 3), x)` and which overrides nothing else but `simulate_precommit`. -/
def exOuter : Outer (ZMod 7) (Leaf (ZMod 7)) where
  spec :=
    { cls := "Both"
      construct := fun σ _ => do
        let p ← mkDLRep σ (Ex.P 2) [2] [Ex.P 1] false
        mkAnd [.leaf (.dlrep p), (exNe false).stmt]
      validate := fun _ => .ok ()
      precommit := pure (.list [])
      simPrecommit := pure (.list []) }
  simulated := false
  precommitment := .none
  constructed := none
  verifier := none

/-- Whether the prover returns a proof with challenge 5. -/
def exNestedProof : Bool :=
  match prove (NLeafProver (ZMod 7) (Leaf (ZMod 7)) (LeafProver (ZMod 7))) (Ex.env 5) (.leaf (.outer exOuter)) [(2, 2)] "m"
      ⟨⟨exNeStore.name, fun _ => none⟩, fun i => i + 1⟩ with
  | .ok ((nizk, _), _) => decide (nizk.challenge = 5)
  | .error _ => false

theorem exOuter_new : NestsNew exOuter := by
  intro σ v u h
  have hu : (do
      let p ← mkDLRep σ (Ex.P 2) [2] [Ex.P 1] false
      mkAnd [.leaf (.dlrep p), (exNe false).stmt] : Except Err (Tree (Leaf (ZMod 7)))) = .ok u := h
  cases hp : mkDLRep σ (Ex.P 2) [2] [Ex.P 1] false with
  | error e => rw [hp] at hu; cases hu
  | ok p =>
    rw [hp] at hu
    cases hu
    exact ⟨_, .and (List.mem_cons_of_mem _ List.mem_cons_self) (.leaf _), rfl⟩

/-- The prover makes a proof, from the right value of the secret … -/
example : exNestedProof = true := by decide +kernel

/-- … and every verifier raises an exception, also if the statement is part of a conjunction. -/
example (env : Env (ZMod 7)) (σ : Store) (nizk : NIZK (ZMod 7)) (s : DLRep (ZMod 7)) :
    (∃ e, verify env σ (.leaf (NLeaf.outer exOuter)) nizk "m" = .error e) ∧
    ∃ e, verify env σ (.and false [.leaf (NLeaf.outer exOuter), .leaf (NLeaf.base (.dlrep s))]) nizk "m" = .error e := by
  have hs : Nests exOuter := fun σ v u h => (exOuter_new σ v u h).imp fun _ => And.left
  exact ⟨C91_never_verified exOuter hs _ (.leaf _) env σ nizk "m",
    C91_never_verified exOuter hs _ (.and List.mem_cons_self (.leaf _)) env σ nizk "m"⟩

/-- The construction succeeds: the hypotheses are not met for want of constructed statements. -/
example : ∃ u, exOuter.spec.construct exNeStore (.list []) = .ok u := ⟨_, rfl⟩

end Zksk.Props
