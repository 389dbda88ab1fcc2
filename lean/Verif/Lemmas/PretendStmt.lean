import Verif.Lemmas.Mate

/-! Commitments and responses of compositions with extended parts, without the values of the secrets. -/

set_option linter.unusedSectionVars false

namespace Zksk.Clause

open Spec Peer

variable {E : Type} [AddCommGroup E] [DecidableEq E]

/-! ### Constructed statements -/

mutual
/-- A prover without values. -/
def dummy : Core E → CoreProver E
  | .leaf s => .leaf ⟨s, [], none⟩
  | .and b ts => .and b (dummyL ts)
  | .or b ts => .or b 0 ts (.and b []) []
/-- The parts. -/
def dummyL : List (Core E) → List (CoreProver E)
  | [] => []
  | t :: ts => dummy t :: dummyL ts
end

theorem dummyL_eq : ∀ ts : List (Core E), dummyL ts = ts.map dummy
  | [] => rfl
  | t :: ts => by simp [dummyL, dummyL_eq ts]

theorem stmtOf_dummy {t : Core E} (h : OrFree t) : PTree.stmtOf (dummy t) = t := by
  induction h with
  | rep s => rfl
  | all b subs _ ih =>
    simp only [dummy, PTree.stmtOf, stmtOfL_eq, dummyL_eq, List.map_map]
    congr 1
    conv_rhs => rw [← List.map_id subs]
    exact List.map_congr_left ih

theorem pretend_dummy {t : Core E} (h : OrFree t) : ∀ (d : Option (Dict Int)) (c : Int),
    pretend (dummy t) d c = (do
      let s ← Tree.simulate t d (some c)
      pure (s.commitment, s.responses)) := by
  induction h with
  | rep s => intro d c; rfl
  | all b subs hof ih =>
    intro d c
    have loop : ∀ (ts : List (Core E)), (∀ t ∈ ts, t ∈ subs) → ∀ D : Dict Int, pretendL (dummyL ts) D c = (do
        let sims ← Tree.simulateAnd ts D c
        pure (sims.map Sim.commitment, sims.map Sim.responses)) := by
      intro ts
      induction ts with
      | nil => intro _ D; rfl
      | cons t ts iht =>
        intro hm D
        simp only [dummyL, pretendL, Tree.simulateAnd, ih t (hm t (by simp)), iht (fun u hu => hm u (by simp [hu])),
          bind_assoc, pure_bind, List.map_cons]
    have e := stmtOf_dummy (.all b subs hof)
    simp only [dummy, PTree.stmtOf] at e
    simp only [dummy, pretend, Tree.simulate, Tree.challengeOrDraw, e, loop subs (fun _ h => h), bind_assoc, pure_bind]

theorem wards_of {S : Sec → Prop} {X : Key → Int} {σ : Store} : ∀ (cp : CoreProver E), Primed (FitIn S X σ) cp →
    ∀ k : Core E, Tree.blank (PTree.stmtOf cp) = Tree.blank k → OrFree k → ∀ k2, Tree.blank k2 = Tree.blank k →
    Ward.Wards σ X k cp (dummy k2) ∧ Torsion k := by
  intro cp
  induction cp using PTree.ind with
  | leaf p =>
    intro hp k hb hof k2 hb2
    cases hp with
    | leaf _ hp =>
    cases hof with
    | all _ _ _ => simp [PTree.stmtOf, Tree.blank] at hb
    | rep s =>
    obtain ⟨s2, rfl, h2⟩ := Tree.blank_leaf_inv hb2
    have hn : p.stmt.norm = s.norm := by
      simp only [PTree.stmtOf, Tree.blank, Tree.leaf.injEq] at hb
      exact hb
    exact ⟨.leaf s p _ hp.1 hn h2, (solidRep_norm hn.symm hp.1.1).2⟩
  | and b ps ih =>
    intro hp k hb hof k2 hb2
    cases hp with
    | and _ _ _ hp =>
    cases hof with
    | rep s => simp [PTree.stmtOf, Tree.blank] at hb
    | all b1 ts hof =>
    obtain ⟨b2, ts2, rfl, h2⟩ := Tree.blank_and_inv hb2
    have hbl : Tree.blankL (PTree.stmtOfL ps) = Tree.blankL ts := by
      simpa only [PTree.stmtOf, Tree.blank, Tree.and.injEq, true_and] using hb
    have l1 := (blankL_get hbl).1
    have l2 := (blankL_get h2).1
    rw [stmtOfL_eq, List.length_map] at l1
    have key : ∀ (i : Nat) (t : Core E) p t2, ts[i]? = some t → ps[i]? = some p → ts2[i]? = some t2 →
        Ward.Wards σ X t p (dummy t2) ∧ Torsion t := by
      intro i t p t2 ht hpi ht2
      have hm := List.mem_of_getElem? hpi
      refine ih p hm (hp p hm) t ?_ (hof t (List.mem_of_getElem? ht)) t2 (blankL_idx h2 ht ht2)
      exact blankL_idx hbl ht (by rw [stmtOfL_eq, List.getElem?_map, hpi]; rfl)
    refine ⟨.and b1 b b2 ts ps (dummyL ts2) l1 (by rw [dummyL_eq, List.length_map, l2]) fun i t p p' ht hpi hp' => ?_, ?_⟩
    · rw [dummyL_eq, List.getElem?_map, Option.map_eq_some_iff] at hp'
      obtain ⟨t2, ht2, rfl⟩ := hp'
      exact (key i t p t2 ht hpi ht2).1
    · intro x c hx
      obtain ⟨t, ht, hx⟩ := mem_termsL.mp hx
      obtain ⟨i, hi⟩ := List.getElem?_of_mem ht
      have hlt := (List.getElem?_eq_some_iff.mp hi).1
      exact (key i t _ _ hi (List.getElem?_eq_getElem (l1 ▸ hlt)) (List.getElem?_eq_getElem (l2 ▸ hlt))).2 x c hx
  | or b i us p sims ih =>
    intro _ k hb hof
    cases hof with
    | rep s => simp [PTree.stmtOf, Tree.blank] at hb
    | all _ _ _ => simp [PTree.stmtOf, Tree.blank] at hb

/-! ### Compositions -/

/-- The same commitment, and the same response to `c`. -/
def Faked (σ σ' : Store) (c : Int) (p : StmtProver E) (a : Val E × StmtProver E) (τ : Store)
    (b : Val E × Val E) (τ' : Store) : Prop :=
  (τ = σ ∧ τ' = σ') ∧ a.1 = b.1 ∧ PTree.stmtOf a.2 = PTree.stmtOf p ∧
    ∀ s, PTree.computeResponse a.2 c ⟨σ, s⟩ = .ok (b.2, ⟨σ, s⟩)

variable {F : Profile E} {q M : Nat} {Z : ExtSpec E → Val E → Prop} {A : Sec → Prop} {σ σ' : Store} {V : List Sec}

theorem pretendL_twin {c : Int} {D D' : Dict Int} : ∀ (ps ps' : List (StmtProver E)),
    ps'.length = ps.length →
    (∀ (i : Nat) p p', ps[i]? = some p → ps'[i]? = some p' → Peer.Twin M (Faked σ σ' c p)
      (starting σ (PTree.internalCommit p (some D))) (starting σ' (pretendStmt p' (some D') c))) →
    Peer.Twin M (fun (a : List (Val E) × List (StmtProver E)) τ (b : List (Val E) × List (Val E)) τ' =>
        (τ = σ ∧ τ' = σ') ∧ a.1 = b.1 ∧ PTree.stmtOfL a.2 = PTree.stmtOfL ps ∧
        ∀ s, PTree.computeResponseL a.2 c ⟨σ, s⟩ = .ok (b.2, ⟨σ, s⟩))
      (starting σ (PTree.internalCommitL ps D)) (starting σ' (pretendStmtL ps' D' c))
  | [], [], _, _ => .pure ⟨⟨rfl, rfl⟩, rfl, rfl, fun _ => rfl⟩
  | [], _ :: _, h, _ => by simp at h
  | _ :: _, [], h, _ => by simp at h
  | p :: ps, p' :: ps', hl, h => by
    simp only [PTree.internalCommitL, pretendStmtL]
    refine .bind (h 0 p p' rfl rfl) ?_
    rintro ⟨v, p1⟩ τ ⟨v', r⟩ τ' ⟨⟨e1, e2⟩, h1, h2, h4⟩
    simp only at h1 h2 h4
    subst h1
    rw [e1, e2]
    refine .bind (pretendL_twin ps ps' (by simpa using hl) fun i q q' hq hq' => h (i + 1) q q' hq hq') ?_
    rintro ⟨vs, qs⟩ τ ⟨vs', rs⟩ τ' ⟨⟨e1, e2⟩, g1, g2, g4⟩
    simp only at g1 g2 g4
    subst g1
    refine .pure ⟨⟨e1, e2⟩, rfl, ?_, fun s => ?_⟩
    · simp only [PTree.stmtOfL, h2, g2]
    · simp only [PTree.computeResponseL]
      rw [pm_bind_eq (h4 s), pm_bind_eq (g4 s)]
      rfl

theorem core_part {ts : List (Stmt E)} {ks : List (Core E)} (h : Tree.coreL ts = some ks) :
    ∀ (i : Nat) t, ts[i]? = some t → ∃ k ∈ ks, Tree.core t = some k := by
  induction ts generalizing ks with
  | nil => intro i t ht; simp at ht
  | cons u ts ih =>
    obtain ⟨k, ks', h1, h2, rfl⟩ := Tree.coreL_cons.mp h
    intro i t ht
    cases i with
    | zero =>
      simp only [List.getElem?_cons_zero, Option.some.injEq] at ht
      subst ht
      exact ⟨k, by simp, h1⟩
    | succ i =>
      obtain ⟨k2, hk2, e⟩ := ih h2 i t ht
      exact ⟨k2, by simp [hk2], e⟩

theorem commit_twin (hM : M ≠ 0) (hq : q ∣ M) (hV : SameKeys σ σ' V) {p p' : StmtProver E} (h : Mated After p p') :
    ∀ (X : Key → Int), Honest (fun p _ => LeafHonest F q Z A σ p) σ p X → Good (LeafBuilt F q Z) (PTree.stmtOf p) →
    Tidy F σ.name (PTree.stmtOf p) → ∀ k, Tree.core (PTree.stmtOf p) = some k → (∀ x ∈ secrets k, x ∈ V) →
    ∀ (c : Int) (d d' : Option (Dict Int)), Ward.Passed σ valueOf σ' c k d d' →
    Peer.Twin M (Faked σ σ' c p) (starting σ (PTree.internalCommit p d)) (starting σ' (pretendStmt p' d' c)) := by
  induction h with
  | leaf p p' h =>
    intro X hh hg _ k hk hsub c d d' hd
    cases hh with
    | leaf _ _ hh =>
    cases p with
    | dlrep p =>
      cases p' with
      | ext _ => exact h.elim
      | dlrep p' =>
      have h : p'.stmt.norm = p.stmt.norm := h
      have hk : some (.leaf p.stmt.norm : Core E) = some k := hk
      cases hk
      have hs := solidRep_norm (s := p.stmt) (s' := p.stmt.norm) rfl hh.1.1.1
      have key := Ward.pretend_leaf (p := p) (p' := p') (s := p.stmt.norm) hM hV hh.1.1 rfl h
        ⟨.leaf _ hs.1, .leaf _, .leaf _, hsub, fun x b hx => by
          have : OneOrder q (.leaf p.stmt.norm : Core E) := oneOrder_blank q (t := .leaf p.stmt) hh.2 rfl
          rw [this x b hx]; exact hq, hs.2⟩ c hd
      have e1 : PTree.internalCommit (.leaf (.dlrep p) : StmtProver E) d =
          (PTree.internalCommit (.leaf p : CoreProver E) d >>= fun x => pure (x.1, match x.2 with
            | .leaf p1 => PTree.leaf (.dlrep p1)
            | _ => PTree.leaf (.dlrep p))) := by
        simp only [PTree.internalCommit, ProverOps.internalCommit, bind_assoc, pure_bind]
      have e2 : pretendStmt (.leaf (.dlrep p') : StmtProver E) d' c =
          (pretend (.leaf p' : CoreProver E) d' c >>= fun x => pure x) := by
        simp only [pretendStmt, pretend, bind_pure]
      rw [e1, e2]
      refine .bind key ?_
      rintro ⟨v, cp⟩ τ ⟨v', r⟩ τ' ⟨⟨rfl, rfl⟩, h1, h2, h3⟩
      simp only at h1 h2 h3
      subst h1
      cases cp with
      | and _ _ => simp [PTree.stmtOf] at h2
      | or _ _ _ _ _ => simp [PTree.stmtOf] at h2
      | leaf p1 =>
        have h2 : p1.stmt = p.stmt := by simpa [PTree.stmtOf, ProverOps.stmtOf] using h2
        refine .pure ⟨⟨rfl, rfl⟩, rfl, ?_, fun s => h3 s⟩
        simp only [PTree.stmtOf, ProverOps.stmtOf, h2]
    | ext p =>
      cases p' with
      | dlrep _ => exact h.elim
      | ext p' =>
      obtain ⟨k0, k0', h1, h2, h3, hof, h4, h5⟩ := h
      obtain ⟨cp, k1, i1, i2, i3, _, i4, i5, k2, _, _, i6, _, _, _, i7, i8, _⟩ := hh
      rw [h1] at i2 i6
      cases i2; cases i6
      have hk : some (Tree.blank k0) = some k := by
        rw [← hk]
        simp [PTree.stmtOf, ProverOps.stmtOf, Tree.core, StmtView.core, core_blank, h1]
      cases hk
      have hbb := blank_blank k0
      have hofb := orFree_blank hof _ hbb
      obtain ⟨hw, htor⟩ := wards_of cp i3 (Tree.blank k0) (i4.trans hbb.symm) hofb k0' (h3.trans hbb.symm)
      have hsol := solid_blank i7 hbb
      have hone := oneOrder_blank q i8 hbb
      have hcomp := composable_blank i5 _ hbb
      have key := Ward.pretend_twin hM hV hw ⟨good_of_solid _ hsol, hcomp,
        Ward.composable_keys hcomp fun x hx y hy => hV x (hsub x hx) y (hsub y hy), hsub,
        fun x b hx => by rw [hone x b hx]; exact hq, htor⟩ c d d' hd
      rw [pretend_dummy (orFree_blank hof _ h3)] at key
      have e1 : PTree.internalCommit (.leaf (.ext p) : StmtProver E) d =
          (PTree.internalCommit cp d >>= fun x => pure (x.1, PTree.leaf (.ext { p with constructed := some x.2 }))) := by
        simp only [PTree.internalCommit, ProverOps.internalCommit, ExtProver.internalCommit, i1, h1, bind_assoc, pure_bind]
      have e2 : pretendStmt (.leaf (.ext p') : StmtProver E) d' c = ((do
          let s ← Tree.simulate k0' d' (some c)
          pure (s.commitment, s.responses)) >>= fun x => pure x) := by
        simp only [pretendStmt, Ext.simulate, Ext.inner, h2, bind_assoc, bind_pure, pure_bind]
        rfl
      rw [e1, e2]
      refine .bind key ?_
      rintro ⟨v, cp1⟩ τ ⟨v', r⟩ τ' ⟨⟨rfl, rfl⟩, g1, g2, g3⟩
      simp only at g1 g2 g3
      subst g1
      exact .pure ⟨⟨rfl, rfl⟩, rfl, rfl, fun s => g3 s⟩
  | and b b' ps ps' l h ih =>
    intro X hh hg htidy k hk hsub c d d' hd
    have hval := validate_tidy F q Z hg htidy
    have hk' := (mated_core (.and b b' ps ps' l h)).1.trans hk
    obtain ⟨k1, j1, hsol, hone, _⟩ := built_core F q Z _ hg
    rw [hk] at j1
    cases j1
    simp only [PTree.stmtOf] at hg htidy hk hk' hval
    have hgs : ∀ t ∈ PTree.stmtOfL ps, Good (LeafBuilt F q Z) t := by
      cases hg with | and _ _ _ hg => exact hg
    have hts : ∀ t ∈ PTree.stmtOfL ps, Tidy F σ.name t := by
      cases htidy with | all _ _ hc _ => exact hc
    cases hh with
    | and _ _ _ hh =>
    have hks := hk
    simp only [Tree.core, Option.map_eq_some_iff] at hks
    obtain ⟨ks, hks, rfl⟩ := hks
    have hgk := good_of_solid _ hsol
    have ho : SameOrders σ (.and false ks) := by
      intro x b y c hx hy _
      rw [hone x b hx, hone y c hy]
    have hdvd : ∀ x b, (x, b) ∈ terms (.and false ks) → b.grp.order ∣ M := fun x b hx => by
      rw [hone x b hx]; exact hq
    have hR := Ward.answer_table (X := valueOf) hM hgk ho hV hsub hdvd c
      (getR := Tree.getRandomizers (.and false ks : Core E)) (getR' := Tree.getRandomizers (.and false ks : Core E))
      (starting_and hgk) (starting_and hgk)
      (by rintro w d w' rfl hh
          exact (Tree.getRandomizers_ok (secretVars_core _) (bases_core _)
            (le_of_eq (wf_length _ (wf_of_good hgk))) hh).2)
    simp only [PTree.internalCommit, pretendStmt]
    rw [updateRandomizers_core hk, updateRandomizers_core hk']
    have e0 : ∀ r, (do
        let σ ← getStore
        liftE (Tree.validateComposition σ (Tree.and b (PTree.stmtOfL ps)))
        let d' ← Tree.updateRandomizers (Tree.and false ks : Core E) d
        let (vs, subs') ← PTree.internalCommitL ps d'
        pure (Val.list vs, PTree.and b subs') : PM (Val E × StmtProver E)) ⟨σ, r⟩ = (do
        let d' ← Tree.updateRandomizers (Tree.and false ks : Core E) d
        let (vs, subs') ← PTree.internalCommitL ps d'
        pure (Val.list vs, PTree.and b subs') : PM (Val E × StmtProver E)) ⟨σ, r⟩ := by
      intro r
      rw [pm_getStore_bind]
      simp only
      rw [hval, pm_liftE_bind]
    rw [show starting σ (do
        let σ ← getStore
        liftE (Tree.validateComposition σ (Tree.and b (PTree.stmtOfL ps)))
        let d' ← Tree.updateRandomizers (Tree.and false ks : Core E) d
        let (vs, subs') ← PTree.internalCommitL ps d'
        pure (Val.list vs, PTree.and b subs') : PM (Val E × StmtProver E)) = starting σ (do
        let d' ← Tree.updateRandomizers (Tree.and false ks : Core E) d
        let (vs, subs') ← PTree.internalCommitL ps d'
        pure (Val.list vs, PTree.and b subs') : PM (Val E × StmtProver E)) from funext e0]
    simp only [Tree.updateRandomizers]
    rw [secretVars_core]
    refine .bind (Ward.upd_answer (t := .and false ks) (wf_of_good hgk) rfl hR hd) ?_
    rintro D τ D' τ' ⟨⟨rfl, rfl⟩, hD⟩
    refine .bind (pretendL_twin (c := c) ps ps' l fun i p p' hp hp' => ?_) ?_
    · have hm := List.mem_of_getElem? hp
      obtain ⟨kp, hkm, hkp⟩ := core_part hks i (PTree.stmtOf p) (by rw [stmtOfL_eq, List.getElem?_map, hp]; rfl)
      refine ih i p p' hp hp' X (hh p hm) (hgs _ (mem_stmtOfL_stmt hm)) (hts _ (mem_stmtOfL_stmt hm)) kp hkp
        (fun x hx => hsub x (mem_secretsL.mpr ⟨kp, hkm, hx⟩)) c (some D) (some D')
        (Ward.answers_congr (t := .and false ks) (fun x hx => mem_secretsL.mpr ⟨_, hkm, hx⟩)
          (fun x b hx => mem_termsL.mpr ⟨_, hkm, hx⟩) hD)
    · rintro ⟨vs, qs⟩ τ ⟨vs', rs⟩ τ' ⟨⟨rfl, rfl⟩, g1, g2, g4⟩
      simp only at g1 g2 g4
      subst g1
      refine .pure ⟨⟨rfl, rfl⟩, rfl, ?_, fun s => ?_⟩
      · simp only [PTree.stmtOf, g2]
      · simp only [PTree.computeResponse]
        rw [pm_bind_eq (g4 s)]
        rfl
  | or b b' i us us' p p' sims l hi ls hc h ih =>
    intro X hh hg htidy k hk hsub c d d' hd
    have hval := validate_tidy F q Z hg htidy
    simp only [PTree.stmtOf] at hg htidy hk hval
    cases hh with
    | or _ _ _ _ _ _ X' _ _ hh =>
    have hmem : PTree.stmtOf p ∈ us.set i (PTree.stmtOf p) := by
      rw [List.mem_iff_getElem?]
      exact ⟨i, by simp [hi]⟩
    have hgs : Good (LeafBuilt F q Z) (PTree.stmtOf p) := by
      cases hg with | or _ _ _ hg => exact hg _ hmem
    have hts : Tidy F σ.name (PTree.stmtOf p) := by
      cases htidy with | any _ _ hc => exact hc _ hmem
    simp only [Tree.core, Option.map_eq_some_iff] at hk
    obtain ⟨ks, hks, rfl⟩ := hk
    obtain ⟨kp, hkm, hkp⟩ := core_part hks i (PTree.stmtOf p) (by simp [hi])
    have slots : ∀ {α : Type} (f : Sim E → α) (v : α),
        PTree.orSlots us.length i v (sims.map f) = .ok ((sims.map f).insertIdx i v) := by
      intro α f v
      have := orSlots_eq i v (sims.map f) (by simp; omega)
      simpa [ls] using this
    have key := ih X' hh hgs hts kp hkp (fun x hx => hsub x (mem_secretsL.mpr ⟨kp, hkm, hx⟩))
      (findResidualChallenge (sims.map Sim.challenge) c challengeLength) none none trivial
    have e0 : starting σ (PTree.internalCommit (.or b i us p sims : StmtProver E) d) = starting σ (do
        let (v, sub') ← PTree.internalCommit p none
        let vs ← liftE (PTree.orSlots us.length i v (sims.map Sim.commitment))
        pure (Val.list vs, PTree.or b i us sub' sims)) := by
      funext r
      simp only [starting, PTree.internalCommit]
      rw [pm_getStore_bind]
      simp only
      rw [hval, pm_liftE_bind]
    rw [e0]
    simp only [pretendStmt]
    refine .bind key ?_
    rintro ⟨v, p1⟩ τ ⟨v', r⟩ τ' ⟨⟨rfl, rfl⟩, h1, h2, h4⟩
    simp only at h1 h2 h4
    subst h1
    simp only
    refine .ends (τ := τ) (τ' := τ') (a := (.list ((sims.map Sim.commitment).insertIdx i v), .or b i us p1 sims))
      (b := (_, _)) ⟨⟨rfl, rfl⟩, rfl, ?_, fun s => ?_⟩ (fun s => ?_) fun s => rfl
    · simp only [PTree.stmtOf, h2]
    · simp only [PTree.computeResponse]
      rw [pm_bind_eq (h4 s), slots, pm_liftE_bind, slots, pm_liftE_bind]
      rfl
    · rw [slots, pm_liftE_bind]
      rfl

end Zksk.Clause
