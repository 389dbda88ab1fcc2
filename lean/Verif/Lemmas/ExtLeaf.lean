import Verif.Lemmas.ExtCore
import Verif.Lemmas.Loose

/-! Leaf laws for extended statements. -/

set_option linter.unusedSectionVars false

namespace Zksk

open Spec

variable {E : Type} [AddCommGroup E] [DecidableEq E]

/-- Storing the dictionary again changes nothing, also in heaps with the same values for its secrets. -/
theorem fixed_same {σ σ' : Store} {d : Dict Int} (h : updateSecretValues σ d = σ)
    (hs : ∀ x ∈ d.map Prod.fst, σ'.key x = σ.key x) : updateSecretValues σ' d = σ' := by
  refine store_ext fun x => ?_
  unfold Store.key
  rw [updateSecretValues_name]
  by_cases hx : x ∈ d.map Prod.fst
  · rw [(updateSecretValues_value d σ' σ x).1 hx, h]
    have := hs x hx
    simp only [Store.key, Prod.mk.injEq] at this
    rw [this.2]
  · rw [(updateSecretValues_value d σ' σ x).2 hx]

/-- A verifier that digests the precommitment of an extended statement. -/
theorem accepts_ext {s : Ext E} {σ0 : Store} {k k' : Core E} (hc : s.constructed = some k')
    (hk : s.spec.construct σ0 s.precommitment = .ok k) (hb : Tree.blank k' = Tree.blank k) :
    Accepts (.leaf (.ext s) : Stmt E) s.precommitment := by
  intro σ tv htv
  obtain ⟨l', rfl, hl⟩ := Tree.judge_leaf_inv htv
  cases l' with
  | dlrep _ => simp [Judged.judge] at hl
  | ext sv =>
    simp only [Judged.judge] at hl
    obtain ⟨c1, c2, c3⟩ := hl
    obtain ⟨kv, e1, e2⟩ := c3 σ0 s.precommitment k hk
    have e3 : Tree.blank kv = Tree.blank k' := e2.trans hb.symm
    refine ⟨.leaf (.ext ⟨sv.spec, sv.simulated, s.precommitment, some kv,
        some (Tree.freshVerifier kv)⟩), ?_, ?_, ?_, ?_, ?_⟩
    · simp [Tree.freshVerifier, Tree.process, StmtOps.process, StmtOps.freshVerifier, Ext.process,
        Ext.fullConstruct, e1, bind_ok, Except.map]
    · simp [Tree.skel, StmtView.skel, hc, skel_core, (shape_blank kv k' e3).1, c1]
    · simp [Tree.core, StmtView.core, hc, core_blank, e3]
    · simp only [Tree.Ready, StmtView.ready]
      exact ⟨_, rfl, kv, rfl, by rw [fresh_core], ready_core _⟩
    · simp [Tree.fullValidate, StmtOps.fullValidate, c2]

theorem acceptsT_ext {s : Ext E} {σ0 : Store} {k k' : Core E} (hc : s.constructed = some k')
    (hk : s.spec.construct σ0 s.precommitment = .ok k) (hb : Tree.blank k' = Tree.blank k)
    (ht : s.precommitment.truthy = true) : AcceptsT (.leaf (.ext s) : Stmt E) s.precommitment :=
  ⟨accepts_ext hc hk hb, fun h => by rw [ht] at h; cases h⟩

section
variable (F : Profile E) (q : Nat) (d : Dict Int) (Z : ExtSpec E → Val E → Prop) (A : Sec → Prop)

/-- Secrets written by precommitting. -/
def leafFoot : LeafProver E → Sec → Prop
  | .dlrep _, _ => False
  | .ext p, x => F.writes p.stmt.spec x

/-- Secrets that concern the leaf with this statement: those of which no extended statement disposes, and
its own. -/
def Own (sp : ExtSpec E) (x : Sec) : Prop := ¬ A x ∨ F.writes sp x

/-- Secrets that concern the leaf. -/
def leafScope : LeafProver E → Sec → Prop
  | .dlrep _, x => ¬ A x
  | .ext p, x => Own F A p.stmt.spec x

/-- Leaves that are to stay outside of disjunctions. -/
def leafOutside : Leaf E → Prop
  | .dlrep _ => False
  | .ext s => F.outside s.spec

theorem leafOutside_blank (l l' : Leaf E) (h : Blank.blank l' = Blank.blank l) (hl : leafOutside F l') :
    leafOutside F l := by
  cases l <;> cases l' <;> simp only [Blank.blank, Leaf.dlrep.injEq, Leaf.ext.injEq, reduceCtorEq,
    leafOutside] at h hl ⊢
  simp only [Ext.mk.injEq, and_true] at h
  rw [← h]; exact hl

/-- Leaves about which nothing was decided yet. -/
def LeafOuter : Leaf E → Prop
  | .dlrep s => InRep (fun x => ¬ A x) s ∧ OneOrder q (.leaf s)
  | .ext s => (∀ x, F.occurs s.spec x → F.reads s.spec x) ∧
      (∀ x, F.reads s.spec x → A x → F.writes s.spec x) ∧ ∀ x, F.writes s.spec x → A x

/-- Leaves under disjunctions about which nothing was decided yet. -/
def LeafGood (σ : Store) : Leaf E → Prop
  | .dlrep s => InRep (fun x => ¬ A x) s ∧ OneOrder q (.leaf s)
  | .ext s => CanSimulate F q σ (Z s.spec) s.spec ∧ (∀ x, F.occurs s.spec x → F.reads s.spec x) ∧
      (∀ x, F.reads s.spec x → A x → F.writes s.spec x) ∧ (∀ x, F.writes s.spec x → A x) ∧ ¬ F.outside s.spec

theorem leafOuter_of_good {σ : Store} (l : Leaf E) (h : LeafGood F q Z A σ l) : LeafOuter F q A l := by
  cases l with
  | dlrep s => exact h
  | ext s => exact ⟨h.2.1, h.2.2.1, h.2.2.2.1⟩

theorem not_outside_of_good {σ : Store} (l : Leaf E) (h : LeafGood F q Z A σ l) : ¬ leafOutside F l := by
  cases l with
  | dlrep s => exact fun h => h
  | ext s => exact h.2.2.2.2

/-- Leaves that can be proved. -/
def LeafSat (σ : Store) : Leaf E → Prop
  | .dlrep s => TrueRep σ d valueOf s
  | .ext s => CanProve F q σ d (Z s.spec) s.spec

/-- Leaves that have been constructed. -/
def LeafBuilt : Leaf E → Prop
  | .dlrep s => SolidRep s ∧ OneOrder q (.leaf s)
  | .ext s => ∃ (k' : Core E) (σ0 : Store) (k : Core E), s.constructed = some k' ∧
      s.spec.construct σ0 s.precommitment = .ok k ∧ Tree.blank k' = Tree.blank k ∧
      (F.outside s.spec ∧ s.precommitment ≠ .none ∨ s.precommitment.truthy = true) ∧ Solid k' ∧ OneOrder q k' ∧
      (∀ x ∈ secrets k', F.occurs s.spec x) ∧ Z s.spec s.precommitment

/-- Provers of leaves before precommitting. -/
def LeafFit (σ : Store) : LeafProver E → Prop
  | .dlrep p => FitIn (fun x => ¬ A x) valueOf σ p ∧ OneOrder q (.leaf p.stmt)
  | .ext p => p.secretValues = d ∧ CanProve F q σ d (Z p.stmt.spec) p.stmt.spec ∧
      (∀ x, F.occurs p.stmt.spec x → F.reads p.stmt.spec x) ∧
      (∀ x, F.reads p.stmt.spec x → A x → F.writes p.stmt.spec x) ∧
      (∀ x, F.writes p.stmt.spec x → A x) ∧ d.Uniq σ ∧ updateSecretValues σ d = σ

/-- Provers of leaves after precommitting. -/
def LeafHonest (σ : Store) : LeafProver E → Prop
  | .dlrep p => FitIn (fun x => ¬ A x) valueOf σ p ∧ OneOrder q (.leaf p.stmt)
  | .ext p => ∃ cp k', p.constructed = some cp ∧ p.stmt.constructed = some k' ∧
      Primed (FitIn (Own F A p.stmt.spec) valueOf σ) cp ∧
      Honest (fun p' _ => FitIn (Own F A p.stmt.spec) valueOf σ p') σ cp valueOf ∧
      Tree.blank (PTree.stmtOf cp) = Tree.blank k' ∧ Composable σ k' ∧ LeafBuilt F q Z (.ext p.stmt)

theorem solid_blank {t t' : Core E} (h : Solid t) (hb : Tree.blank t' = Tree.blank t) : Solid t' := by
  have := good_blank (good_of_solid t h) t' hb
  clear h hb
  induction this with
  | leaf s h => exact h
  | and s ts hne _ ih => exact ⟨hne, solidL_iff.mpr ih⟩
  | or s ts hne _ ih => exact ⟨hne, solidL_iff.mpr ih⟩

theorem oneOrder_blank {t t' : Core E} (h : OneOrder q t) (hb : Tree.blank t' = Tree.blank t) :
    OneOrder q t' := by
  intro x b hx
  rw [← terms_blank t', hb, terms_blank t] at hx
  exact h x b hx

theorem blank_blank (t : Core E) : Tree.blank (Tree.blank t) = Tree.blank t := by
  induction t using Tree.ind with
  | leaf s => rfl
  | and s subs ih =>
    simp only [Tree.blank, Tree.blankL_eq, List.map_map]
    congr 1
    exact List.map_congr_left ih
  | or s subs ih =>
    simp only [Tree.blank, Tree.blankL_eq, List.map_map]
    congr 1
    exact List.map_congr_left ih

theorem core_built {l : Leaf E} (h : LeafBuilt F q Z l) : ∃ k, StmtView.core l = some k ∧
    Solid k ∧ OneOrder q k ∧ ∀ x ∈ secrets k, leafOccurs F l x := by
  cases l with
  | dlrep s =>
    refine ⟨.leaf s.norm, rfl, ?_, ?_, ?_⟩
    · exact solid_blank (t := .leaf s) h.1 rfl
    · exact oneOrder_blank q (t := .leaf s) h.2 rfl
    · intro x hx; exact hx
  | ext s =>
    obtain ⟨k', _, _, h1, _, _, _, h2, h3, h4, _⟩ := h
    refine ⟨Tree.blank k', by simp [StmtView.core, h1, core_blank], ?_, ?_, ?_⟩
    · exact solid_blank h2 (blank_blank k')
    · exact oneOrder_blank q h3 (blank_blank k')
    · intro x hx
      rw [(shape_blank _ _ (blank_blank k')).2] at hx
      exact h4 x hx

theorem get_stmt (σ : Store) (hu : updateSecretValues σ d = σ) (hd : d.Uniq σ) (hA : ∀ e ∈ d, ¬ A e.1) :
    ∀ (l l' : Leaf E) (p? : Option (LeafProver E)) (w w' : World), LeafOuter F q A l → LeafSat F q d Z σ l →
      w.store = σ → ProverOps.getProver l d w = .ok ((p?, l'), w') →
      w'.store = σ ∧ LeafOuter F q A l' ∧ Blank.blank l' = Blank.blank l ∧
        ∀ p, p? = some p → LeafFit F q d Z A σ p ∧ Blank.blank (ProverOps.stmtOf p) = Blank.blank l := by
  intro l l' p? w w' hg ht hw h
  cases l with
  | dlrep s =>
    simp only [ProverOps.getProver] at h
    obtain ⟨⟨p1, s'⟩, w1, h1, h⟩ := pm_bind.mp h
    rw [pm_pure_iff, Prod.mk.injEq, Prod.mk.injEq] at h
    obtain ⟨⟨e1, e2⟩, e3⟩ := h
    obtain ⟨f1, f2, f3, f4⟩ := (getLaws_in (E := E) (fun x => ¬ A x) σ d valueOf hu hd hA).get
      s s' p1 w w1 hg.1 ht hw h1
    have hb : s'.norm = s.norm := f3
    rw [← e1, ← e2, ← e3]
    refine ⟨f1, ⟨f2, oneOrder_blank q (t := .leaf s) hg.2 (by simp only [Tree.blank, f3])⟩,
      by simp only [Blank.blank, hb], fun p hp => ?_⟩
    rw [Option.map_eq_some_iff] at hp
    obtain ⟨p2, hp2, rfl⟩ := hp
    obtain ⟨g1, g2⟩ := f4 p2 hp2
    have hb2 : p2.stmt.norm = s.norm := g2
    exact ⟨⟨g1, oneOrder_blank q (t := .leaf s) hg.2 (by simp only [Tree.blank, Blank.blank, hb2])⟩,
      by simp only [ProverOps.stmtOf, Blank.blank, hb2]⟩
  | ext s =>
    simp only [ProverOps.getProver] at h
    obtain ⟨⟨p1, s'⟩, w1, h1, h⟩ := pm_bind.mp h
    rw [pm_pure_iff, Prod.mk.injEq, Prod.mk.injEq] at h
    obtain ⟨⟨e1, e2⟩, e3⟩ := h
    unfold ExtProver.getProver at h1
    rw [pm_getStore_bind, pm_setStore_bind, pm_pure_iff, Prod.mk.injEq, Prod.mk.injEq] at h1
    obtain ⟨⟨e4, e5⟩, e6⟩ := h1
    subst e5
    rw [← e1, ← e2, ← e3, ← e6]
    refine ⟨by rw [hw]; exact hu, hg, rfl, fun p hp => ?_⟩
    rw [← e4] at hp
    simp only [Option.map_some, Option.some.injEq] at hp
    subst hp
    exact ⟨⟨rfl, ht, hg.1, hg.2.1, hg.2.2, hd, hu⟩, rfl⟩

theorem leafGood_blank {σ : Store} {l l' : Leaf E} (h : LeafGood F q Z A σ l) (h' : LeafOuter F q A l')
    (hb : Blank.blank l' = Blank.blank l) : LeafGood F q Z A σ l' := by
  cases l with
  | dlrep s =>
    cases l' with
    | dlrep s' => exact h'
    | ext s' => simp [Blank.blank] at hb
  | ext s =>
    cases l' with
    | dlrep s' => simp [Blank.blank] at hb
    | ext s' =>
      simp only [Blank.blank, Leaf.ext.injEq, Ext.mk.injEq, and_true] at hb
      simp only [LeafGood] at h ⊢
      rw [hb]; exact h

theorem getLaws_stmt (σ : Store) (hu : updateSecretValues σ d = σ) (hd : d.Uniq σ)
    (hA : ∀ e ∈ d, ¬ A e.1) :
    GetLaws (E := E) (LeafGood F q Z A σ) (LeafSat F q d Z σ) (fun l => LeafBuilt F q Z l ∧ ¬ leafOutside F l)
      (fun p => LeafFit F q d Z A σ p ∧ ¬ leafOutside F (ProverOps.stmtOf p)) σ d where
  upd := hu
  get := by
    intro l l' p? w w' hg ht hw h
    obtain ⟨e1, e2, e3, e4⟩ := get_stmt F q d Z A σ hu hd hA l l' p? w w' (leafOuter_of_good F q Z A l hg) ht hw h
    refine ⟨e1, leafGood_blank F q Z A hg e2 e3, e3, fun p hp => ?_⟩
    obtain ⟨f1, f2⟩ := e4 p hp
    exact ⟨⟨f1, fun ho => not_outside_of_good F q Z A l hg (leafOutside_blank F _ _ f2 ho)⟩, f2⟩
  prep := by
    intro l l' w w' hg hw h
    cases l with
    | dlrep s =>
      simp only [StmtOps.prepareSim] at h
      obtain ⟨s', w1, h1, h⟩ := pm_bind.mp h
      rw [pm_pure_iff, Prod.mk.injEq] at h1 h
      obtain ⟨rfl, rfl⟩ := h1
      obtain ⟨rfl, rfl⟩ := h
      exact ⟨hw, hg, ⟨⟨hg.1.1.1, hg.2⟩, fun h => h⟩, rfl, _, rfl, by simpa [WellFormed, DLRep.norm] using hg.1.1.1.1⟩
    | ext s =>
      simp only [StmtOps.prepareSim] at h
      obtain ⟨s', w1, h1, h⟩ := pm_bind.mp h
      rw [pm_pure_iff, Prod.mk.injEq] at h
      obtain ⟨h2, h3⟩ := h
      unfold Ext.prepareSim at h1
      obtain ⟨v, w2, k, c1, c2, c3, c4, c5, c6, c7, c8⟩ := hg.1 w hw
      rw [pm_bind_eq c1, pm_getStore_bind, liftE_iff] at h1
      obtain ⟨h1, h4⟩ := h1
      unfold Ext.fullConstruct at h1
      rw [c2, c3, bind_ok] at h1
      injection h1 with h1
      simp only at h1 h4
      rw [← h2, ← h3, ← h4, ← h1]
      refine ⟨c2, hg, ⟨⟨k, σ, k, rfl, c3, rfl, .inr c4, c5, c6, c7, c8⟩, hg.2.2.2.2⟩, rfl, Tree.blank k,
        by simp [StmtView.core, core_blank], ?_⟩
      exact wf_of_solid (solid_blank c5 (blank_blank k))
  simAcc := by
    intro l w w' d c sim hb h
    cases l with
    | dlrep s =>
      rw [simulate_dlrep_precommitment (s := s) h]
      exact acceptsT_dlrep_leaf s
    | ext s =>
      obtain ⟨⟨k', σ0, k, h1, h2, h3, h4, _⟩, hno⟩ := hb
      have h4 := h4.resolve_left fun h => hno h.1
      have h' : Ext.simulate s d c w = .ok (sim, w') := h
      unfold Ext.simulate at h'
      obtain ⟨t, ht, h'⟩ := pm_liftE_bind_iff.mp h'
      obtain ⟨tr, w1, _, h'⟩ := pm_bind.mp h'
      rw [pm_pure_iff, Prod.mk.injEq] at h'
      rw [← h'.1]
      exact acceptsT_ext h1 h2 h3 h4
  simLaw := by
    intro t k hk hwf w w' d c sim hu h
    exact simulate_stmt t k hk hwf hu h

theorem leafFit_stab (hA : ∀ e ∈ d, ¬ A e.1) : ∀ (p : LeafProver E) σ σ', LeafFit F q d Z A σ p →
    Same (leafScope F A p) σ σ' → LeafFit F q d Z A σ' p := by
  intro p σ σ' h hs
  cases p with
  | dlrep p => exact ⟨fitIn_stab _ _ p σ σ' h.1 hs, h.2⟩
  | ext p =>
    obtain ⟨h1, h2, h3, h4, hwA, h5, h6⟩ := h
    have hr : ∀ x, F.reads p.stmt.spec x ∨ x ∈ d.map Prod.fst → σ'.key x = σ.key x := by
      rintro x (hx | hx)
      · refine hs x ?_
        by_cases ha : A x
        · exact .inr (h4 x hx ha)
        · exact .inl ha
      · obtain ⟨e, he, rfl⟩ := List.mem_map.mp hx
        exact hs e.1 (.inl (hA e he))
    refine ⟨h1, fun w hw => h2 w fun x hx => (hw x hx).trans (hr x hx), h3, h4, hwA, ?_, ?_⟩
    · exact uniq_same (S := fun x => x ∈ d.map Prod.fst) (fun x hx => hr x (.inr hx))
        (fun e he => List.mem_map_of_mem he) h5
    · exact fixed_same h6 fun x hx => hr x (.inr hx)

/-- Precommitting of a leaf that can be proved: it does not fail. -/
theorem precommit_leaf_ext (hA : ∀ e ∈ d, ¬ A e.1) (p : ExtProver E) (w : World)
    (h : LeafFit F q d Z A w.store (.ext p)) :
    ∃ v p' w', ExtProver.precommit p w = .ok ((v, p'), w') ∧
      (F.outside p.stmt.spec ∧ v ≠ .none ∨ v.truthy = true) ∧
      Same (fun x => ¬ F.writes p.stmt.spec x) w.store w'.store ∧ w'.store.name = w.store.name ∧
      (∀ σ, Same (Own F A p.stmt.spec) w'.store σ → LeafHonest F q Z A σ (.ext p')) ∧
      p'.stmt.spec = p.stmt.spec ∧ p'.stmt.precommitment = v := by
  obtain ⟨h1, h2, h3, h4, hwA, h5, h6⟩ := h
  obtain ⟨v, w1, k, c1, c2, c3, c4, c5, c6, c7, c8, c9, c10, c11, c12, c13⟩ := h2 w fun x _ => rfl
  have hown : ∀ x, F.reads p.stmt.spec x → Own F A p.stmt.spec x := by
    intro x hx
    by_cases ha : A x
    · exact .inr (h4 x hx ha)
    · exact .inl ha
  have hdw : ∀ x, x ∈ d.map Prod.fst → w1.store.key x = w.store.key x := by
    intro x hx
    obtain ⟨e, he, rfl⟩ := List.mem_map.mp hx
    exact c2 e.1 fun hf => hA e he (hwA _ hf)
  obtain ⟨cp, t', w2, g1, g2, g3, g4, g5, g6, g7⟩ := getProver_in (S := Own F A p.stmt.spec) (t := k) (d := d)
    (w := w1) (X := valueOf) c6 c7 (fun x hx => hown x (h3 x (c9 x hx))) (fun x hx => hown x (c10 x hx))
    (fixed_same h6 hdw)
    (uniq_same (S := fun x => x ∈ d.map Prod.fst) hdw (fun e he => List.mem_map_of_mem he) h5)
    (fun e he => .inl (hA e he)) c11
  refine ⟨v, ⟨⟨p.stmt.spec, p.stmt.simulated, v, some t', p.stmt.verifier⟩, p.secretValues, some cp⟩, w2, ?_, c5,
    fun x hx => by rw [g2]; exact c2 x hx, by rw [g2, c3], fun σ hσ => ?_, rfl, rfl⟩
  · unfold ExtProver.precommit
    rw [pm_bind_eq c1, pm_getStore_bind]
    unfold Ext.fullConstruct
    rw [c4, bind_ok, pm_liftE_bind]
    unfold Ext.inner
    rw [pm_liftE_bind, h1, pm_bind_eq g1]
    rfl
  · rw [g2] at hσ
    refine ⟨cp, t', rfl, rfl, primed_in _ hσ g4, honest_in _ hσ cp valueOf valueOf g5 g7, g6.trans g3.symm,
      composable_blank (composable_same c12 fun x hx => hσ x (hown x (h3 x (c9 x hx)))) t' g3,
      t', w1.store, k, rfl, c4, g3, c5, solid_blank c6 g3, oneOrder_blank q c8 g3, fun x hx => ?_, c13⟩
    rw [(shape_blank _ _ g3).2] at hx
    exact c9 x hx

theorem precommitLeaf_stmt (hA : ∀ e ∈ d, ¬ A e.1) :
    PrecommitLeafL (E := E) (leafOutside F) (LeafFit F q d Z A) (LeafHonest F q Z A) (leafFoot F)
      (leafScope F A) := by
  intro p p' w w' v h hp
  cases p with
  | dlrep p =>
    simp only [ProverOps.precommit, pm_pure_iff, Prod.mk.injEq] at hp
    obtain ⟨⟨rfl, rfl⟩, rfl⟩ := hp
    refine ⟨Same.refl _ _, fun σ hσ => ⟨fitIn_stab _ _ p _ σ h.1 hσ, h.2⟩, (acceptsT_dlrep_leaf p.stmt).loosen _,
      ⟨_, rfl, ?_⟩, rfl⟩
    exact wf_of_solid (solid_blank (t := .leaf p.stmt) h.1.1.1.1 rfl)
  | ext p =>
    obtain ⟨v1, p1, w1, e1, e2, e3, e4, e5, e6, e7⟩ := precommit_leaf_ext F q d Z A hA p w h
    simp only [ProverOps.precommit] at hp
    rw [pm_bind_eq e1] at hp
    simp only [pm_pure_iff, Prod.mk.injEq] at hp
    obtain ⟨⟨rfl, rfl⟩, rfl⟩ := hp
    have hb : LeafBuilt F q Z (.ext p1.stmt) := by
      obtain ⟨_, _, _, _, _, _, _, _, hb⟩ := e5 w1.store (Same.refl _ _)
      exact hb
    refine ⟨e3, e5, ?_, ?_, by simp only [ProverOps.stmtOf, Blank.blank, e6]⟩
    · obtain ⟨k', σ0, k, i1, i2, i3, i4, _⟩ := hb
      have := accepts_ext i1 i2 i3
      rw [e7] at this
      refine ⟨this, fun hv => ?_⟩
      rcases e2 with e2 | e2
      · exact .inr ⟨e2.2, _, rfl, by simp only [ProverOps.stmtOf, leafOutside, e6]; exact e2.1⟩
      · rw [e2] at hv; cases hv
    · obtain ⟨k, i1, i2, _⟩ := core_built F q Z hb
      exact ⟨k, i1, wf_of_solid i2⟩

theorem honestRep_of_fitIn {S : Sec → Prop} {X : Key → Int} {σ : Store} {p : DLRepProver E}
    (h : FitIn S X σ p) : HonestRep σ p X := by
  obtain ⟨⟨_, _, h3, h4, h5⟩, _⟩ := h
  exact ⟨h3, h4, h5⟩

theorem honest_weaken {L P : Type} [StmtOps E L] [StmtView E L] [ProverOps E L P]
    {HL HL' : P → (Key → Int) → Prop} (hi : ∀ p Y, HL p Y → HL' p Y) {σ : Store}
    {p : PTree E L P} {X : Key → Int} (h : Honest HL σ p X) : Honest HL' σ p X := by
  induction h with
  | leaf p X h => exact .leaf p X (hi p X h)
  | and s subs X _ ih => exact .and s subs X ih
  | or s idx stmts sub sims X X' h1 h2 _ ih => exact .or s idx stmts sub sims X X' h1 h2 ih

theorem commitLeaf_stmt (σ : Store) : CommitLeaf (E := E) (LeafHonest F q Z A σ) σ valueOf := by
  intro p k hp hk hwf w w' d com p' hu hw h
  cases p with
  | dlrep p =>
    simp only [ProverOps.internalCommit] at h
    obtain ⟨⟨v, p1⟩, w1, h1, h⟩ := pm_bind.mp h
    simp only [pm_pure_iff, Prod.mk.injEq] at h
    obtain ⟨⟨rfl, rfl⟩, rfl⟩ := h
    obtain ⟨f1, f2, f3⟩ := commitLeaf_core (E := E) σ valueOf p k (honestRep_of_fitIn hp.1) hk hwf w w1 d v p1 hu hw h1
    have f2' : p1.stmt = p.stmt := f2
    exact ⟨f1, by simp only [ProverOps.stmtOf, f2'], f3⟩
  | ext p =>
    obtain ⟨cp, k', i1, i2, _, i3, i4, _⟩ := hp
    simp only [ProverOps.internalCommit, ExtProver.internalCommit, i1, i2] at h
    obtain ⟨⟨v, p1⟩, w1, h1, h⟩ := pm_bind.mp h
    obtain ⟨⟨v2, cp2⟩, w2, h2, h1⟩ := pm_bind.mp h1
    simp only [pm_pure_iff, Prod.mk.injEq] at h h1
    obtain ⟨⟨rfl, rfl⟩, rfl⟩ := h1
    obtain ⟨⟨rfl, rfl⟩, rfl⟩ := h
    have hcore : Tree.core (PTree.stmtOf cp) = some k := by
      simp only [ProverOps.stmtOf, StmtView.core, i2, Option.bind_some, core_blank] at hk
      rw [core_blank, i4]; exact hk
    obtain ⟨f1, f2, f3⟩ := commit_core σ cp valueOf k
      (honest_weaken (fun p Y hp => by obtain ⟨hp, rfl⟩ := hp; exact honestRep_of_fitIn hp)
        (honest_fix i3 rfl))
      hcore hwf hu hw h2
    exact ⟨f1, rfl, f3⟩

end

end Zksk
