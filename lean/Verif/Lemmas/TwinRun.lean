import Verif.Lemmas.TwinCommit

/-! Related provers of compositions: the same precommitments, commitments and responses. -/

set_option linter.unusedSectionVars false

namespace Zksk.Peer

open Spec

variable {E : Type} [AddCommGroup E] [DecidableEq E]

variable {M : Nat} {σ σ' : Store} {X X' : Key → Int} {V : List Sec}

theorem validate_ready {τ : Store} {t u : Core E} (hg : Good SolidRep t) (hc : Composable τ t)
    (hb : Tree.blank u = Tree.blank t) (hl : ∀ s, t ≠ .leaf s) : Tree.validateComposition τ u = .ok () := by
  have hg := good_blank hg u hb
  have hc := composable_blank hc u hb
  cases u with
  | leaf s =>
    cases t with
    | leaf s => exact (hl s rfl).elim
    | and _ _ => simp [Tree.blank] at hb
    | or _ _ => simp [Tree.blank] at hb
  | and b us =>
    cases hc with
    | and _ _ ho hp _ =>
    rcases validate_and_cases τ b us (wf_of_good hg) with ⟨_, h2⟩ | ⟨_, _, h2⟩ | ⟨h1, _⟩
    · exact (h2 ho).elim
    · exact (h2 hp).elim
    · exact h1
  | or b us =>
    cases hc with
    | or _ _ ho _ =>
    rcases validate_or_cases τ b us (wf_of_good hg) with ⟨h1, _⟩ | ⟨_, h2⟩
    · exact h1
    · exact (h2 ho).elim

/-- Lists of provers commit one after the other. -/
theorem commitL_twin {M : Nat} {σ σ' : Store} {c : Int} {D D' : Dict Int} : ∀ (ps ps' : List (CoreProver E)),
    ps.length = ps'.length →
    (∀ (i : Nat) p p', ps[i]? = some p → ps'[i]? = some p' → Twin M (Match σ σ' c p p')
      (starting σ (PTree.internalCommit p (some D))) (starting σ' (PTree.internalCommit p' (some D')))) →
    Twin M (fun (a : List (Val E) × List (CoreProver E)) τ (b : List (Val E) × List (CoreProver E)) τ' =>
        (τ = σ ∧ τ' = σ') ∧ a.1 = b.1 ∧ PTree.stmtOfL a.2 = PTree.stmtOfL ps ∧
        PTree.stmtOfL b.2 = PTree.stmtOfL ps' ∧
        ∃ r, (∀ s, PTree.computeResponseL a.2 c ⟨σ, s⟩ = .ok (r, ⟨σ, s⟩)) ∧
          ∀ s, PTree.computeResponseL b.2 c ⟨σ', s⟩ = .ok (r, ⟨σ', s⟩))
      (starting σ (PTree.internalCommitL ps D)) (starting σ' (PTree.internalCommitL ps' D'))
  | [], [], _, _ => .pure ⟨⟨rfl, rfl⟩, rfl, rfl, rfl, [], fun _ => rfl, fun _ => rfl⟩
  | [], _ :: _, h, _ => by simp at h
  | _ :: _, [], h, _ => by simp at h
  | p :: ps, p' :: ps', hl, h => by
    simp only [PTree.internalCommitL]
    refine .bind (h 0 p p' rfl rfl) ?_
    rintro ⟨v, p1⟩ τ ⟨v', p1'⟩ τ' ⟨⟨rfl, rfl⟩, h1, h2, h3, r, h4, h5⟩
    simp only at h1 h2 h3 h4 h5
    subst h1
    refine .bind (commitL_twin ps ps' (by simpa using hl) fun i q q' hq hq' => h (i + 1) q q' hq hq') ?_
    rintro ⟨vs, qs⟩ τ ⟨vs', qs'⟩ τ' ⟨⟨rfl, rfl⟩, g1, g2, g3, rs, g4, g5⟩
    simp only at g1 g2 g3 g4 g5
    subst g1
    refine .pure ⟨⟨rfl, rfl⟩, rfl, ?_, ?_, r :: rs, fun s => ?_, fun s => ?_⟩
    · simp only [PTree.stmtOfL, h2, g2]
    · simp only [PTree.stmtOfL, h3, g3]
    · simp only [PTree.computeResponseL]
      rw [pm_bind_eq (h4 s), pm_bind_eq (g4 s)]
      rfl
    · simp only [PTree.computeResponseL]
      rw [pm_bind_eq (h5 s), pm_bind_eq (g5 s)]
      rfl

/-- Related provers commit to the same value and answer `c` in the same way. -/
theorem commit_twin {M : Nat} {σ σ' : Store} {X X' : Key → Int} {V : List Sec} (hM : M ≠ 0)
    (hV : SameKeys σ σ' V) {t : Core E} {p p' : CoreProver E} (h : Mates σ X σ' X' t p p') :
    Ready M V σ σ' t → ∀ (c : Int) (d d' : Option (Dict Int)), Handed σ X σ' X' c t d d' →
    Twin M (Match σ σ' c p p') (starting σ (PTree.internalCommit p d))
      (starting σ' (PTree.internalCommit p' d')) := by
  induction h with
  | leaf s p p' h h' e e' =>
    intro hr c d d' hd
    exact commit_leaf hM hV h h' e e' hr c hd
  | and b b1 b2 ts ps ps' l l' h ih =>
    intro hr c d d' hd
    obtain ⟨hb, hb'⟩ := mates_blank (.and b b1 b2 ts ps ps' l l' h)
    simp only [PTree.stmtOf] at hb hb'
    have hg1 := good_blank hr.good _ hb
    have hg2 := good_blank hr.good _ hb'
    have ho : SameOrders σ (.and b ts) := by cases hr.comp with | and _ _ ho _ _ => exact ho
    have hsec : secrets (.and b1 (PTree.stmtOfL ps) : Core E) = secrets (.and b ts) := (shape_blank _ _ hb).2
    have hsec' : secrets (.and b2 (PTree.stmtOfL ps') : Core E) = secrets (.and b ts) := (shape_blank _ _ hb').2
    have hR := shift_table (X := X) (X' := X') hM hr.good ho hV hr.sub hr.dvd c
      (getR := Tree.getRandomizers (.and b1 (PTree.stmtOfL ps) : Core E))
      (getR' := Tree.getRandomizers (.and b2 (PTree.stmtOfL ps') : Core E))
      (by rw [starting_and hg1, table_blank hb]) (by rw [starting_and hg2, table_blank hb'])
      (by rintro w d w' rfl hh
          have := (Tree.getRandomizers_ok (secretVars_core _) (bases_core _)
            (le_of_eq (wf_length _ (wf_of_good hg1))) hh).2
          rw [← hsec]; exact this)
      (by rintro w d w' rfl hh
          exact (Tree.getRandomizers_ok (secretVars_core _) (bases_core _)
            (le_of_eq (wf_length _ (wf_of_good hg2))) hh).2.1)
    simp only [PTree.internalCommit]
    refine .get (.lift (validate_ready hr.good hr.comp hb (by simp))
      (validate_ready hr.good hr.comp' hb' (by simp)) ?_)
    simp only [Tree.updateRandomizers]
    rw [secretVars_core, secretVars_core]
    have e1 : coreVars (.and b1 (PTree.stmtOfL ps) : Core E) = secrets (.and b ts) := hsec
    have e2 : coreVars (.and b2 (PTree.stmtOfL ps') : Core E) = secrets (.and b ts) := hsec'
    rw [e1, e2]
    refine .bind (upd_shift rfl hR hd) ?_
    rintro D τ D' τ' ⟨⟨rfl, rfl⟩, hD⟩
    refine .bind (commitL_twin (c := c) ps ps' (l.trans l'.symm) fun i p p' hp hp' => ?_) ?_
    · have hi : i < ts.length := l ▸ (List.getElem?_eq_some_iff.mp hp).1
      have ht := List.getElem?_eq_getElem hi
      have hm := List.mem_of_getElem? ht
      exact ih i _ p p' ht hp hp' (ready_and hr hm) c (some D) (some D')
        (shifted_congr (t := .and b ts) (fun x hx => mem_secretsL.mpr ⟨_, hm, hx⟩)
          (fun x b hx => mem_termsL.mpr ⟨_, hm, hx⟩) hD)
    · rintro ⟨vs, qs⟩ τ ⟨vs', qs'⟩ τ' ⟨⟨rfl, rfl⟩, g1, g2, g3, rs, g4, g5⟩
      simp only at g1 g2 g3 g4 g5
      subst g1
      refine .pure ⟨⟨rfl, rfl⟩, rfl, ?_, ?_, .list rs, fun s => ?_, fun s => ?_⟩
      · simp only [PTree.stmtOf, g2]
      · simp only [PTree.stmtOf, g3]
      · simp only [PTree.computeResponse]
        rw [pm_bind_eq (g4 s)]
        rfl
      · simp only [PTree.computeResponse]
        rw [pm_bind_eq (g5 s)]
        rfl
  | or b b1 b2 i ts us us' t p p' sims e e' hi l h ih =>
    intro hr c d d' hd
    obtain ⟨hb, hb'⟩ := mates_blank (.or b b1 b2 i ts us us' t p p' sims e e' hi l h)
    simp only [PTree.stmtOf] at hb hb'
    have hlt := (List.getElem?_eq_some_iff.mp hi).1
    have l1 : us.length = sims.length + 1 := ((blankL_get e).1).trans l.symm
    have l2 : us'.length = sims.length + 1 := ((blankL_get e').1).trans l.symm
    have slots : ∀ {α : Type} (f : Sim E → α) (v : α),
        PTree.orSlots (sims.length + 1) i v (sims.map f) = .ok ((sims.map f).insertIdx i v) := by
      intro α f v
      have := orSlots_eq i v (sims.map f) (by simp; omega)
      simpa using this
    simp only [PTree.internalCommit]
    refine .get (.lift (validate_ready hr.good hr.comp hb (by simp))
      (validate_ready hr.good hr.comp' hb' (by simp)) ?_)
    refine .bind (ih (ready_or hr (List.mem_of_getElem? hi))
      (findResidualChallenge (sims.map Sim.challenge) c challengeLength) none none trivial) ?_
    rintro ⟨v, p1⟩ τ ⟨v', p1'⟩ τ' ⟨⟨rfl, rfl⟩, h1, h2, h3, r, h4, h5⟩
    simp only at h1 h2 h3 h4 h5
    subst h1
    simp only
    rw [l1, l2]
    refine .lift (slots Sim.commitment v) (slots Sim.commitment v) ?_
    refine .pure ⟨⟨rfl, rfl⟩, rfl, ?_, ?_, .tuple [.list (((sims.map Sim.challenge).insertIdx i
      (findResidualChallenge (sims.map Sim.challenge) c challengeLength)).map Val.int),
      .list ((sims.map Sim.responses).insertIdx i r)], fun s => ?_, fun s => ?_⟩
    · simp only [PTree.stmtOf, h2]
    · simp only [PTree.stmtOf, h3]
    · simp only [PTree.computeResponse]
      rw [pm_bind_eq (h4 s), l1, slots, pm_liftE_bind, slots, pm_liftE_bind]
      rfl
    · simp only [PTree.computeResponse]
      rw [pm_bind_eq (h5 s), l2, slots, pm_liftE_bind, slots, pm_liftE_bind]
      rfl

/-- Related provers precommit to the same value. -/
theorem mates_precommit {t : Core E} {p p' : CoreProver E} (h : Mates σ X σ' X' t p p') :
    ∃ v, (∀ w, PTree.precommit p w = .ok ((v, p), w)) ∧ ∀ w, PTree.precommit p' w = .ok ((v, p'), w) := by
  induction h with
  | leaf s p p' h h' e e' => exact ⟨.none, fun _ => rfl, fun _ => rfl⟩
  | and b b1 b2 ts ps ps' l l' h ih =>
    have key : ∀ (ps ps' : List (CoreProver E)), ps.length = ps'.length →
        (∀ (i : Nat) p p', ps[i]? = some p → ps'[i]? = some p' →
          ∃ v, (∀ w, PTree.precommit p w = .ok ((v, p), w)) ∧ ∀ w, PTree.precommit p' w = .ok ((v, p'), w)) →
        ∃ vs, (∀ w, PTree.precommitL ps w = .ok ((vs, ps), w)) ∧
          ∀ w, PTree.precommitL ps' w = .ok ((vs, ps'), w) := by
      intro ps
      induction ps with
      | nil =>
        intro ps' hl _
        cases ps' with
        | nil => exact ⟨[], fun _ => rfl, fun _ => rfl⟩
        | cons _ _ => simp at hl
      | cons p ps ihp =>
        intro ps' hl h
        cases ps' with
        | nil => simp at hl
        | cons p' ps' =>
        obtain ⟨v, h1, h2⟩ := h 0 p p' rfl rfl
        obtain ⟨vs, h3, h4⟩ := ihp ps' (by simpa using hl) fun i q q' hq hq' => h (i + 1) q q' hq hq'
        refine ⟨v :: vs, fun w => ?_, fun w => ?_⟩
        · simp only [PTree.precommitL]
          rw [pm_bind_eq (h1 w), pm_bind_eq (h3 w)]
          rfl
        · simp only [PTree.precommitL]
          rw [pm_bind_eq (h2 w), pm_bind_eq (h4 w)]
          rfl
    obtain ⟨vs, h1, h2⟩ := key ps ps' (l.trans l'.symm) fun i p p' hp hp' => by
      have hi : i < ts.length := l ▸ (List.getElem?_eq_some_iff.mp hp).1
      exact ih i _ p p' (List.getElem?_eq_getElem hi) hp hp'
    refine ⟨PTree.andPrecommitment vs, fun w => ?_, fun w => ?_⟩
    · simp only [PTree.precommit]
      rw [pm_bind_eq (h1 w)]
      rfl
    · simp only [PTree.precommit]
      rw [pm_bind_eq (h2 w)]
      rfl
  | or b b1 b2 i ts us us' t p p' sims e e' hi l h ih =>
    obtain ⟨v, h1, h2⟩ := ih
    have hlt := (List.getElem?_eq_some_iff.mp hi).1
    have l1 : us.length = sims.length + 1 := ((blankL_get e).1).trans l.symm
    have l2 : us'.length = sims.length + 1 := ((blankL_get e').1).trans l.symm
    have slots : PTree.orSlots (sims.length + 1) i v (sims.map Sim.precommitment) =
        .ok ((sims.map Sim.precommitment).insertIdx i v) := by
      have := orSlots_eq i v (sims.map Sim.precommitment) (by simp; omega)
      simpa using this
    refine ⟨if ((sims.map Sim.precommitment).insertIdx i v).any Val.truthy then
      .list ((sims.map Sim.precommitment).insertIdx i v) else .none, fun w => ?_, fun w => ?_⟩
    · simp only [PTree.precommit]
      rw [pm_bind_eq (h1 w)]
      simp only
      rw [l1, slots, pm_liftE_bind]
      rfl
    · simp only [PTree.precommit]
      rw [pm_bind_eq (h2 w)]
      simp only
      rw [l2, slots, pm_liftE_bind]
      rfl

end Zksk.Peer
