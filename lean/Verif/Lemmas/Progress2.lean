import Verif.Lemmas.Progress

/-! `prove()` does not fail on satisfied statements. -/

set_option linter.unusedSectionVars false

namespace Zksk

open Spec

variable {E : Type} [AddCommGroup E] [DecidableEq E]

/-! ### Properties that do not depend on the mutable parts of statements -/

theorem blankL_get {ts us : List (Core E)} (h : Tree.blankL ts = Tree.blankL us) :
    ts.length = us.length ∧ ∀ u ∈ us, ∃ t ∈ ts, Tree.blank t = Tree.blank u := by
  induction ts generalizing us with
  | nil =>
    cases us with
    | nil => simp
    | cons u us => simp [Tree.blankL] at h
  | cons t ts ih =>
    cases us with
    | nil => simp [Tree.blankL] at h
    | cons u us =>
      simp only [Tree.blankL, List.cons.injEq] at h
      obtain ⟨h1, h2⟩ := ih h.2
      refine ⟨by simp [h1], fun v hv => ?_⟩
      rcases List.mem_cons.mp hv with rfl | hv
      · exact ⟨t, by simp, h.1⟩
      · obtain ⟨t', ht', e⟩ := h2 v hv
        exact ⟨t', by simp [ht'], e⟩

theorem blankL_split : ∀ (ls : List (Core E)) {t : Core E} {rs us : List (Core E)},
    Tree.blankL us = Tree.blankL (ls ++ t :: rs) → ∃ ls' t' rs', us = ls' ++ t' :: rs' ∧
      Tree.blankL ls' = Tree.blankL ls ∧ Tree.blank t' = Tree.blank t ∧ Tree.blankL rs' = Tree.blankL rs
  | [], t, rs, us, h => by
    cases us with
    | nil => simp [Tree.blankL] at h
    | cons u us =>
      simp only [List.nil_append, Tree.blankL, List.cons.injEq] at h
      exact ⟨[], u, us, rfl, rfl, h.1, h.2⟩
  | l :: ls, t, rs, us, h => by
    cases us with
    | nil => simp [Tree.blankL] at h
    | cons u us =>
      simp only [List.cons_append, Tree.blankL, List.cons.injEq] at h
      obtain ⟨ls', t', rs', rfl, h1, h2, h3⟩ := blankL_split ls h.2
      exact ⟨u :: ls', t', rs', rfl, by simp [Tree.blankL, h.1, h1], h2, h3⟩

theorem orAt_blank {t u : Core E} {pre post : List Sec} (h : OrAt t pre u post) :
    ∀ (t' : Core E), Tree.blank t' = Tree.blank t → ∃ u', OrAt t' pre u' post ∧ secrets u' = secrets u := by
  induction h with
  | here b subs =>
    intro t' ht
    cases t' with
    | or b' subs' => exact ⟨_, .here b' subs', (shape_blank _ _ ht).2⟩
    | leaf _ => simp [Tree.blank] at ht
    | and _ _ => simp [Tree.blank] at ht
  | down b ls t rs pre post u h ih =>
    intro t' ht
    cases t' with
    | or b' subs' => simp [Tree.blank] at ht
    | leaf _ => simp [Tree.blank] at ht
    | and b' subs' =>
      simp only [Tree.blank, Tree.and.injEq, true_and] at ht
      obtain ⟨ls', t1, rs', rfl, h1, h2, h3⟩ := blankL_split ls ht
      obtain ⟨u', hu, hs⟩ := ih t1 h2
      rw [← (shapeL_blank _ _ h1).2, ← (shapeL_blank _ _ h3).2]
      exact ⟨u', .down b' ls' t1 rs' pre post u' hu, hs⟩

theorem orsPrivate_blank {σ : Store} {t t' : Core E} (hb : Tree.blank t' = Tree.blank t)
    (h : OrsPrivate σ t) : OrsPrivate σ t' := by
  intro pre u post ho x hx y hy
  obtain ⟨u', h1, h2⟩ := orAt_blank ho t hb.symm
  exact h pre u' post h1 x (h2 ▸ hx) y hy

theorem sameOrders_blank {σ : Store} {t t' : Core E} (hb : Tree.blank t' = Tree.blank t)
    (h : SameOrders σ t) : SameOrders σ t' := by
  have : terms t' = terms t := by rw [← terms_blank t', hb, terms_blank]
  unfold SameOrders at *
  rw [this]; exact h

theorem composable_blank {σ : Store} {t : Core E} (h : Composable σ t) :
    ∀ t', Tree.blank t' = Tree.blank t → Composable σ t' := by
  induction h with
  | leaf s =>
    intro t' ht
    cases t' with
    | leaf s' => exact .leaf s'
    | and _ _ => simp [Tree.blank] at ht
    | or _ _ => simp [Tree.blank] at ht
  | and b subs ho hp h ih =>
    intro t' ht
    cases t' with
    | leaf s' => simp [Tree.blank] at ht
    | or _ _ => simp [Tree.blank] at ht
    | and b' subs' =>
      refine .and b' subs' (sameOrders_blank ht ho) (orsPrivate_blank ht hp) fun u hu => ?_
      simp only [Tree.blank, Tree.and.injEq, true_and] at ht
      obtain ⟨v, hv, e⟩ := (blankL_get ht.symm).2 u hu
      exact ih v hv u e.symm
  | or b subs ho h ih =>
    intro t' ht
    cases t' with
    | leaf s' => simp [Tree.blank] at ht
    | and _ _ => simp [Tree.blank] at ht
    | or b' subs' =>
      refine .or b' subs' (sameOrders_blank ht ho) fun u hu => ?_
      simp only [Tree.blank, Tree.or.injEq, true_and] at ht
      obtain ⟨v, hv, e⟩ := (blankL_get ht.symm).2 u hu
      exact ih v hv u e.symm

theorem good_blank {t : Core E} (h : Good SolidRep t) :
    ∀ t', Tree.blank t' = Tree.blank t → Good SolidRep t' := by
  induction h with
  | leaf s h =>
    intro t' ht
    cases t' with
    | leaf s' =>
      simp only [Tree.blank, Tree.leaf.injEq] at ht
      have h1 : s'.bases = s.bases := by have := congrArg DLRep.bases ht; exact this
      have h2 : s'.secretVars = s.secretVars := by have := congrArg DLRep.secretVars ht; exact this
      have h3 : s'.lhs = s.lhs := by have := congrArg DLRep.lhs ht; exact this
      refine .leaf s' ?_
      unfold SolidRep at *
      rw [h1, h2, h3]; exact h
    | and _ _ => simp [Tree.blank] at ht
    | or _ _ => simp [Tree.blank] at ht
  | and b subs hne h ih =>
    intro t' ht
    cases t' with
    | leaf s' => simp [Tree.blank] at ht
    | or _ _ => simp [Tree.blank] at ht
    | and b' subs' =>
      simp only [Tree.blank, Tree.and.injEq, true_and] at ht
      refine .and b' subs' (fun h0 => ?_) fun u hu => ?_
      · subst h0
        exact hne (List.length_eq_zero_iff.mp (blankL_get ht).1.symm)
      · obtain ⟨v, hv, e⟩ := (blankL_get ht.symm).2 u hu
        exact ih v hv u e.symm
  | or b subs hne h ih =>
    intro t' ht
    cases t' with
    | leaf s' => simp [Tree.blank] at ht
    | and _ _ => simp [Tree.blank] at ht
    | or b' subs' =>
      simp only [Tree.blank, Tree.or.injEq, true_and] at ht
      refine .or b' subs' (fun h0 => ?_) fun u hu => ?_
      · subst h0
        exact hne (List.length_eq_zero_iff.mp (blankL_get ht).1.symm)
      · obtain ⟨v, hv, e⟩ := (blankL_get ht.symm).2 u hu
        exact ih v hv u e.symm

/-! ### Precommitting -/

theorem sims_length {PL : DLRepProver E → Prop} {s : Bool} {idx : Nat} {stmts : List (Core E)}
    {sub : CoreProver E} {sims : List (Sim E)} (h : Primed PL (.or s idx stmts sub sims : CoreProver E)) :
    idx ≤ sims.length ∧ stmts.length = sims.length + 1 := by
  cases h with
  | or _ _ _ _ _ h1 h2 h3 h4 =>
    have := h2.length_eq
    rw [List.length_eraseIdx_of_lt h1, List.length_map] at this
    omega

/-- Plain statements have nothing to precommit to, except lists of nothing. -/
theorem precommit_progress {PL : DLRepProver E → Prop} : ∀ (p : CoreProver E), Primed PL p → ∀ w,
    ∃ v, PTree.precommit p w = .ok ((v, p), w) ∧ (v = .none ∨ ∃ vs, v = .list vs) := by
  intro p
  induction p using PTree.ind with
  | leaf p => intro _ w; exact ⟨.none, rfl, .inl rfl⟩
  | and s subs ih =>
    intro h w
    cases h with
    | and _ _ hne h =>
    have hrec : ∀ (ps : List (CoreProver E)), (∀ p ∈ ps, p ∈ subs) →
        ∃ vs, PTree.precommitL ps w = .ok ((vs, ps), w) := by
      intro ps
      induction ps with
      | nil => intro _; exact ⟨[], rfl⟩
      | cons p ps ihp =>
        intro hm
        obtain ⟨v, hv, _⟩ := ih p (hm p (by simp)) (h p (hm p (by simp))) w
        obtain ⟨vs, hvs⟩ := ihp fun q hq => hm q (by simp [hq])
        refine ⟨v :: vs, ?_⟩
        simp only [PTree.precommitL]
        rw [pm_bind_eq hv, pm_bind_eq hvs]
        rfl
    obtain ⟨vs, hvs⟩ := hrec subs fun p hp => hp
    refine ⟨PTree.andPrecommitment vs, ?_, ?_⟩
    · simp only [PTree.precommit]
      rw [pm_bind_eq hvs]
      rfl
    · unfold PTree.andPrecommitment
      split
      · exact .inl rfl
      · exact .inr ⟨_, rfl⟩
  | or s idx stmts sub sims ih =>
    intro h w
    obtain ⟨h1, h2⟩ := sims_length h
    cases h with
    | or _ _ _ _ _ _ _ _ h =>
    obtain ⟨v, hv, _⟩ := ih h w
    have := orSlots_eq idx v (sims.map Sim.precommitment) (by simpa using h1)
    refine ⟨if ((sims.map Sim.precommitment).insertIdx idx v).any Val.truthy then
      .list ((sims.map Sim.precommitment).insertIdx idx v) else .none, ?_, ?_⟩
    · simp only [PTree.precommit]
      rw [pm_bind_eq hv]
      simp only
      rw [h2, show sims.length = (sims.map Sim.precommitment).length by simp, this, pm_liftE_bind]
      rfl
    · split
      · exact .inr ⟨_, rfl⟩
      · exact .inl rfl

/-! ### Committing -/

theorem mem_stmtOfL {p : CoreProver E} {ps : List (CoreProver E)} (h : p ∈ ps) :
    PTree.stmtOf p ∈ PTree.stmtOfL ps := by
  induction ps with
  | nil => simp at h
  | cons q ps ih =>
    simp only [PTree.stmtOfL, List.mem_cons] at h ⊢
    rcases h with rfl | h
    · exact .inl rfl
    · exact .inr (ih h)

theorem commit_progress {σ : Store} {PL : DLRepProver E → Prop} (hPL : ∀ q, PL q → SolidRep q.stmt) :
    ∀ (p : CoreProver E), Primed PL p → Good SolidRep (PTree.stmtOf p) →
    Composable σ (PTree.stmtOf p) → ∀ (d : Option (Dict Int)) (w : World), w.store = σ →
    (∀ d0, d = some d0 → d0.Uniq σ) →
    ∃ com p' w', PTree.internalCommit p d w = .ok ((com, p'), w') ∧ w'.store = σ ∧
      ((∃ b, com = .pt b) ∨ ∃ vs, com = .list vs) := by
  intro p
  induction p using PTree.ind with
  | leaf p =>
    intro h hg hc d w hw hu
    cases h with
    | leaf _ h =>
    obtain ⟨com, p', w', h1, h2⟩ := commit_progress_dlrep p (hPL p h) d w (by rw [hw]; exact hu)
    refine ⟨com, .leaf p', w', ?_, h2.trans hw, ?_⟩
    · simp only [PTree.internalCommit]
      have h1' : (ProverOps.internalCommit p d : PM (Val E × DLRepProver E)) w = .ok ((com, p'), w') := h1
      rw [pm_bind_eq h1']
      rfl
    · unfold DLRepProver.internalCommit at h1
      obtain ⟨d', w1, _, h1⟩ := pm_bind.mp h1
      rw [pm_getStore_bind, pm_liftE_bind_iff] at h1
      obtain ⟨ks, _, h1⟩ := h1
      rw [pm_liftE_bind_iff] at h1
      obtain ⟨b, _, h1⟩ := h1
      rw [pm_pure_iff, Prod.mk.injEq, Prod.mk.injEq] at h1
      exact .inl ⟨b, h1.1.1.symm⟩
  | and s subs ih =>
    intro h hg hc d w hw hu
    simp only [PTree.stmtOf] at hg hc
    cases h with
    | and _ _ hne h =>
    have hval : Tree.validateComposition σ (Tree.and s (PTree.stmtOfL subs) : Core E) = .ok () := by
      cases hc with
      | and _ _ ho hp _ =>
      rcases validate_and_cases σ s (PTree.stmtOfL subs) (wf_of_good hg) with ⟨_, h2⟩ | ⟨_, _, h2⟩ | ⟨h1, _⟩
      · exact (h2 ho).elim
      · exact (h2 hp).elim
      · exact h1
    obtain ⟨d', w1, h1, h2, h3⟩ := updateRandomizers_progress hg d w (by rw [hw]; exact hu)
    rw [hw] at h2 h3
    have hgs : ∀ t ∈ PTree.stmtOfL subs, Good SolidRep t := by
      cases hg with | and _ _ _ hg => exact hg
    have hcs : ∀ t ∈ PTree.stmtOfL subs, Composable σ t := by
      cases hc with | and _ _ _ _ hc => exact hc
    have hrec : ∀ (ps : List (CoreProver E)), (∀ p ∈ ps, p ∈ subs) → ∀ w, w.store = σ →
        ∃ vs ps' w', PTree.internalCommitL ps d' w = .ok ((vs, ps'), w') ∧ w'.store = σ := by
      intro ps
      induction ps with
      | nil => intro _ w hw; exact ⟨[], [], w, rfl, hw⟩
      | cons p ps ihp =>
        intro hm w hw
        have hp := hm p (by simp)
        obtain ⟨v, p', w2, g1, g2, _⟩ := ih p hp (h p hp) (hgs _ (mem_stmtOfL hp)) (hcs _ (mem_stmtOfL hp))
          (some d') w hw (by intro d0 hd; injection hd with hd; subst hd; exact h3.1)
        obtain ⟨vs, ps', w3, g3, g4⟩ := ihp (fun q hq => hm q (by simp [hq])) w2 g2
        refine ⟨v :: vs, p' :: ps', w3, ?_, g4⟩
        simp only [PTree.internalCommitL]
        rw [pm_bind_eq g1, pm_bind_eq g3]
        rfl
    obtain ⟨vs, ps', w2, g1, g2⟩ := hrec subs (fun p hp => hp) w1 h2
    refine ⟨.list vs, .and s ps', w2, ?_, g2, .inr ⟨vs, rfl⟩⟩
    simp only [PTree.internalCommit]
    rw [pm_getStore_bind, hw, hval, pm_liftE_bind, pm_bind_eq h1, pm_bind_eq g1]
    rfl
  | or s idx stmts sub sims ih =>
    intro h hg hc d w hw hu
    obtain ⟨l1, l2⟩ := sims_length h
    simp only [PTree.stmtOf] at hg hc
    cases h with
    | or _ _ _ _ _ hidx _ _ h =>
    have hmem : PTree.stmtOf sub ∈ stmts.set idx (PTree.stmtOf sub) := by
      rw [List.mem_iff_getElem?]
      exact ⟨idx, by simp [hidx]⟩
    have hval : Tree.validateComposition σ (Tree.or s (stmts.set idx (PTree.stmtOf sub)) : Core E) = .ok () := by
      cases hc with
      | or _ _ ho _ =>
      rcases validate_or_cases σ s (stmts.set idx (PTree.stmtOf sub)) (wf_of_good hg) with ⟨h1, _⟩ | ⟨_, h2⟩
      · exact h1
      · exact (h2 ho).elim
    have hgs : Good SolidRep (PTree.stmtOf sub) := by
      cases hg with | or _ _ _ hg => exact hg _ hmem
    have hcs : Composable σ (PTree.stmtOf sub) := by
      cases hc with | or _ _ _ hc => exact hc _ hmem
    obtain ⟨com, p', w1, g1, g2, _⟩ := ih h hgs hcs none w hw (by simp)
    have := orSlots_eq idx com (sims.map Sim.commitment) (by simpa using l1)
    refine ⟨.list ((sims.map Sim.commitment).insertIdx idx com), .or s idx stmts p' sims, w1, ?_, g2,
      .inr ⟨_, rfl⟩⟩
    · simp only [PTree.internalCommit]
      rw [pm_getStore_bind, hw, hval, pm_liftE_bind, pm_bind_eq g1]
      simp only
      rw [l2, show sims.length = (sims.map Sim.commitment).length by simp, this, pm_liftE_bind]
      rfl

/-! ### Proving -/

theorem heapFor_eq (σ : Store) (d : Dict Int) {t : Core E} (ht : ∀ s, t ≠ .leaf s) :
    heapFor σ d t = updateSecretValues σ d := by
  have hgen : ∀ (d : Dict Int) (σ : Store) (o : Option Int) (x : Sec),
      (d.foldl (fun o kv => if kv.1 = x then some kv.2 else o) o).or (σ.value x) =
        (updateSecretValues ⟨σ.name, fun y => if y = x then o.or (σ.value x) else σ.value y⟩ d).value x := by
    intro d
    induction d with
    | nil => intro σ o x; simp [updateSecretValues]
    | cons kv d ih =>
      intro σ o x
      rw [List.foldl_cons, ih]
      show _ = (updateSecretValues (Store.setValue _ kv.1 kv.2) d).value x
      by_cases hm : x ∈ d.map Prod.fst
      · exact (updateSecretValues_value d _ _ x).1 hm
      · rw [(updateSecretValues_value d _ σ x).2 hm, (updateSecretValues_value d _ σ x).2 hm]
        simp only [Store.setValue, if_true]
        by_cases hk : kv.1 = x
        · simp [hk]
        · simp [hk, Ne.symm hk]
  have : heapFor σ d t = ⟨σ.name, fun x =>
      (d.foldl (fun o kv => if kv.1 = x then some kv.2 else o) none).or (σ.value x)⟩ := by
    cases t with
    | leaf s => exact (ht s rfl).elim
    | and _ _ => rfl
    | or _ _ => rfl
  rw [this]
  refine store_ext fun x => ?_
  simp only [Store.key, Prod.mk.injEq]
  refine ⟨by rw [updateSecretValues_name], ?_⟩
  rw [hgen]
  congr 2
  cases σ
  simp only [Store.mk.injEq, true_and]
  funext y
  by_cases hy : y = x
  · simp [hy]
  · simp [hy]

theorem good_both : ∀ (t : Core E), Solid t → Torsion t →
    Good (fun s => SolidRep s ∧ Torsion (.leaf s)) t := by
  intro t
  induction t using Tree.ind with
  | leaf s => intro h ht; exact .leaf s ⟨h, ht⟩
  | and s subs ih =>
    intro h ht
    refine .and s subs h.1 fun t hm => ih t hm (solidL_iff.mp h.2 t hm) fun x b hx => ht x b ?_
    simp only [terms]
    exact mem_termsL.mpr ⟨t, hm, hx⟩
  | or s subs ih =>
    intro h ht
    refine .or s subs h.1 fun t hm => ih t hm (solidL_iff.mp h.2 t hm) fun x b hx => ht x b ?_
    simp only [terms]
    exact mem_termsL.mpr ⟨t, hm, hx⟩

/-- `get_prover` on a satisfied statement. -/
theorem getProver_satisfied {t : Core E} {d : Dict Int} {w : World} {X : Key → Int} (hs : Solid t)
    (ht : Torsion t) (hd : d.Uniq (heapFor w.store d t)) (hX : Satisfied (heapFor w.store d t) d X t) :
    ∃ p t' w1, (PTree.getProver t d : PM (Option (CoreProver E) × Core E)) w = .ok ((some p, t'), w1) ∧
      w1.store = heapFor w.store d t ∧ Primed (FitRep w1.store X) p ∧
      Honest (fun p _ => FitRep w1.store X p) w1.store p X ∧ Tree.blank (PTree.stmtOf p) = Tree.blank t := by
  have hg := good_both t hs ht
  have key : ∀ w : World, updateSecretValues w.store d = w.store → d.Uniq w.store →
      Satisfied w.store d X t →
      ∃ p t' w1, (PTree.getProver t d : PM (Option (CoreProver E) × Core E)) w = .ok ((some p, t'), w1) ∧
      w1.store = w.store ∧ Primed (FitRep w1.store X) p ∧
      Honest (fun p _ => FitRep w1.store X p) w1.store p X ∧
      Tree.blank (PTree.stmtOf p) = Tree.blank t := by
    intro w hu hd hX
    obtain ⟨p, t', w1, h⟩ := getProver_progress hu hd t hg hX w rfl
    obtain ⟨h1, _, _, h2⟩ := getProver_law (getLaws_true w.store d X hu hd) X t hg (sat_of_satisfied hX)
      t' (some p) w w1 rfl h
    obtain ⟨h3, h4, h5⟩ := h2 p rfl
    exact ⟨p, t', w1, h, h1, h1 ▸ h3, h1 ▸ h4, h5⟩
  cases t with
  | leaf s =>
    cases hX with
    | rep _ hv h =>
    have hs' : SolidRep s := hs
    obtain ⟨p, s', h1⟩ := getProver_progress_dlrep hs' (w := w) (d := d) hd
      (fun x hx => by rw [show w.store = heapFor w.store d (.leaf s) from rfl, hv x hx]; rfl)
    obtain ⟨f1, f2, f3⟩ := (getProver_dlrep h1).2.2 p rfl
    have hfit : FitRep w.store X p := by
      obtain ⟨g1, g2⟩ := solidRep_norm f1 ⟨hs', ht⟩
      refine ⟨⟨g1, g2⟩, g1.1, ?_, ?_, g2⟩
      · have hvars : p.stmt.secretVars = s.secretVars := by
          have := congrArg DLRep.secretVars f1; exact this
        intro x hx
        rw [hvars] at hx
        have hv' : ∀ x ∈ s.secretVars, given w.store d s x = some (X (w.store.key x)) := hv
        have := hv' x hx
        rw [f3]
        unfold given at this
        cases hdx : Dict.get? w.store d x with
        | some v => rw [hdx] at this; rw [Dict.get?_update_uniq (σ := w.store) hd _ x v hdx]; exact this
        | none => rw [hdx] at this; rw [Dict.get?_update_of_none _ hdx]; exact this
      · have h1 : p.stmt.bases = s.bases := by have := congrArg DLRep.bases f1; exact this
        have h2 : p.stmt.secretVars = s.secretVars := by have := congrArg DLRep.secretVars f1; exact this
        have h3 : p.stmt.lhs = s.lhs := by have := congrArg DLRep.lhs f1; exact this
        cases h with
        | rep _ _ i1 i2 =>
          refine .rep _ _ ?_ ?_
          · rw [h1, h3]; exact i1
          · rw [h1, h2, h3]; exact i2
    refine ⟨.leaf p, .leaf s', w, ?_, rfl, .leaf p hfit, .leaf p X hfit, ?_⟩
    · simp only [PTree.getProver]
      have h1' : (ProverOps.getProver s d : PM (Option (DLRepProver E) × DLRep E)) w =
        .ok ((some p, s'), w) := h1
      rw [pm_bind_eq h1']
      rfl
    · simp only [PTree.stmtOf, Tree.blank]
      exact congrArg _ f1
  | and s subs =>
    rw [heapFor_eq _ _ (by simp)] at hd hX ⊢
    obtain ⟨p, t', w1, h⟩ := key { w with store := updateSecretValues w.store d }
      (updateSecretValues_idem _ _) hd hX
    refine ⟨p, t', w1, ?_, h.2⟩
    rw [← h.1]
    simp only [PTree.getProver, pm_getStore_bind, pm_setStore_bind, updateSecretValues_idem]
  | or s subs =>
    rw [heapFor_eq _ _ (by simp)] at hd hX ⊢
    obtain ⟨p, t', w1, h⟩ := key { w with store := updateSecretValues w.store d }
      (updateSecretValues_idem _ _) hd hX
    refine ⟨p, t', w1, ?_, h.2⟩
    rw [← h.1]
    simp only [PTree.getProver, pm_getStore_bind, pm_setStore_bind, updateSecretValues_idem]

theorem primed_mono {PL QL : DLRepProver E → Prop} (hi : ∀ q, PL q → QL q) {p : CoreProver E}
    (h : Primed PL p) : Primed QL p := by
  induction h with
  | leaf p h => exact .leaf p (hi p h)
  | and s subs hne _ ih => exact .and s subs hne ih
  | or s i stmts sub sims h1 h2 h3 _ ih => exact .or s i stmts sub sims h1 h2 h3 ih

theorem honest_mono {PL QL : DLRepProver E → Prop} (hi : ∀ q, PL q → QL q) {σ : Store} {p : CoreProver E}
    {X : Key → Int} (h : Honest (fun p _ => PL p) σ p X) : Honest (fun p _ => QL p) σ p X := by
  induction h with
  | leaf p Y h => exact .leaf p Y (hi p h)
  | and s subs Y _ ih => exact .and s subs Y ih
  | or s i stmts sub sims Y Y' hi hs _ ih => exact .or s i stmts sub sims Y Y' hi hs ih

theorem chunk_progress (env : Env E) {v : Val E} (h : (v = .none ∨ ∃ vs, v = .list vs) ∨ ∃ b, v = .pt b) :
    ∃ b, env.chunk v = .ok b := by
  rcases h with (rfl | ⟨vs, rfl⟩) | ⟨b, rfl⟩ <;> exact ⟨_, rfl⟩

/-- Everything an honest prover does succeeds. -/
theorem run_primed {t : Core E} {w1 : World} {X : Key → Int} {p : CoreProver E} (hs : Solid t)
    (hc : Composable w1.store t) (e1 : Primed (FitRep w1.store X) p)
    (e2 : Honest (fun p _ => FitRep w1.store X p) w1.store p X)
    (e3 : Tree.blank (PTree.stmtOf p) = Tree.blank t) (env : Env E) (msg : String) :
    (∃ nizk p' w2, PTree.getNizkProof env p msg w1 = .ok ((nizk, p'), w2) ∧
        verify env w1.store t nizk msg = .ok true ∧ w2.store = w1.store ∧
        Tree.blank (PTree.stmtOf p') = Tree.blank t) ∧
      ∃ w', sigmaProtocol env w1.store t p w1 = .ok (true, w') := by
  obtain ⟨v, hpre, hv⟩ := precommit_progress p e1 w1
  have hg : Good SolidRep (PTree.stmtOf p) := good_blank (good_of_solid t hs) _ e3
  obtain ⟨com, p', w2, hcom, hw2, hcv⟩ := commit_progress (PL := FitRep w1.store X) (fun q hq => hq.1.1) p e1 hg
    (composable_blank hc _ e3) none w1 rfl (by simp)
  have f1 := primed_mono (QL := CorePL X w1.store) (fun q hq => hq.2) e1
  have f2 := honest_mono (QL := CorePL X w1.store) (fun q hq => hq.2) e2
  obtain ⟨g2, g3, g4, g5, k, g6, g7, g8⟩ := run_law (corePL_stab X) (precommitLeaf_core X)
    (fun σ => commitLeaf_core σ X) f1 f2 (apart_core p) hpre hcom
  refine ⟨?_, sigma_accepts (corePL_stab X) (precommitLeaf_core X) (fun σ => commitLeaf_core σ X) f1 f2
    (apart_core p) hpre hcom (judge_core e3.symm) (validate_core _) (fun k _ => sees_refl _ _)
    (fun t1 _ => by cases t1 <;> rfl)⟩
  obtain ⟨id, _, hid, _⟩ := Tree.proofId_isOk (σ := w2.store) (skel_core (PTree.stmtOf p'))
  obtain ⟨a, ha⟩ := chunk_progress env (.inl hv)
  obtain ⟨b, hb⟩ := chunk_progress env (v := com) (by
    rcases hcv with hcv | hcv
    · exact .inr hcv
    · exact .inl (.inr hcv))
  obtain ⟨c, hfs⟩ : ∃ c, env.fiatShamir id v com msg = .ok c := by
    unfold Env.fiatShamir Env.challengeInput
    simp only [ha, hb, bind_ok]
    exact ⟨_, rfl⟩
  obtain ⟨⟨q, hq⟩, ρ, _, hresp⟩ := g8
  obtain ⟨r, w3, i1, i2, i3, i4⟩ := hresp q hq c w2 g2
  have hn : PTree.getNizkProof env p msg w1 = .ok ((⟨c, r, v, env.digest id⟩, p'), w3) := by
    unfold PTree.getNizkProof
    rw [pm_bind_eq hpre]
    simp only
    rw [pm_bind_eq hcom]
    simp only
    rw [pm_getStore_bind, hid, pm_liftE_bind, hfs, pm_liftE_bind, pm_bind_eq i1]
    rfl
  refine ⟨_, _, _, hn, ?_, i2, by rw [g4, e3]⟩
  exact nizk_accepts (corePL_stab X) (precommitLeaf_core X) (fun σ => commitLeaf_core σ X) f1 f2
    (apart_core p) hn (judge_core e3.symm) (validate_core _) (fun k _ => i2 ▸ sees_refl _ _)

/-- Everything an honest prover of a satisfied statement does succeeds. -/
theorem run_progress {t : Core E} {d : Dict Int} {w : World} {X : Key → Int} (hs : Solid t)
    (ht : Torsion t) (hd : d.Uniq (heapFor w.store d t)) (hX : Satisfied (heapFor w.store d t) d X t)
    (hc : Composable (heapFor w.store d t) t) (env : Env E) (msg : String) :
    ∃ p t' w1, (PTree.getProver t d : PM (Option (CoreProver E) × Core E)) w = .ok ((some p, t'), w1) ∧
      w1.store = heapFor w.store d t ∧
      (∃ nizk p' w2, PTree.getNizkProof env p msg w1 = .ok ((nizk, p'), w2) ∧
        verify env w1.store t nizk msg = .ok true ∧ w2.store = w1.store ∧
        Tree.blank (PTree.stmtOf p') = Tree.blank t) ∧
      ∃ w', sigmaProtocol env w1.store t p w1 = .ok (true, w') := by
  obtain ⟨p, t', w1, h, e0, e1, e2, e3⟩ := getProver_satisfied hs ht hd hX
  exact ⟨p, t', w1, h, e0, run_primed hs (e0 ▸ hc) e1 e2 e3 env msg⟩

end Zksk
