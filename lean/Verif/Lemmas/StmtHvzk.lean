import Verif.SpecHide
import Verif.Lemmas.Inline
import Verif.Lemmas.SimRun
import Mathlib.Logic.Equiv.Fin.Basic

/-! Honest and simulated runs of conjunctions with extended parts. -/

set_option linter.unusedSectionVars false

namespace Zksk

open Spec

variable {E : Type} [AddCommGroup E] [DecidableEq E]

/-! ### Blocks of random numbers -/

theorem tape_zero {M : Nat} (y : Fin 0 → Fin M) (rest : Nat → Nat) : tape y rest = rest := by
  funext i
  simp [tape]

theorem tape_append {n m M : Nat} (a : Fin n → Fin M) (b : Fin m → Fin M) (rest : Nat → Nat) :
    tape (Fin.append a b) rest = tape a (tape b rest) := by
  funext i
  simp only [tape]
  by_cases h1 : i < n
  · rw [dif_pos h1, dif_pos (by omega)]
    have : (⟨i, by omega⟩ : Fin (n + m)) = Fin.castAdd m ⟨i, h1⟩ := rfl
    rw [this, Fin.append_left]
  · rw [dif_neg h1]
    by_cases h2 : i < n + m
    · rw [dif_pos h2, dif_pos (by omega)]
      have : (⟨i, h2⟩ : Fin (n + m)) = Fin.natAdd n ⟨i - n, by omega⟩ := by
        apply Fin.ext; simp; omega
      rw [this, Fin.append_right]
    · rw [dif_neg h2, dif_neg (by omega)]
      congr 1
      omega

/-- Two blocks after each other. -/
def sidePerm {n m q : Nat} (e : Equiv.Perm (Fin n → Fin q)) (f : Equiv.Perm (Fin m → Fin q)) :
    Equiv.Perm (Fin (n + m) → Fin q) :=
  (Fin.appendEquiv n m).symm.trans ((Equiv.prodCongr e f).trans (Fin.appendEquiv n m))

theorem sidePerm_append {n m q : Nat} (e : Equiv.Perm (Fin n → Fin q)) (f : Equiv.Perm (Fin m → Fin q))
    (a : Fin n → Fin q) (b : Fin m → Fin q) : sidePerm e f (Fin.append a b) = Fin.append (e a) (f b) := by
  have : Fin.append a b = Fin.appendEquiv n m (a, b) := rfl
  rw [this]
  simp only [sidePerm, Equiv.trans_apply, Equiv.symm_apply_apply]
  rfl

theorem append_surj {n m q : Nat} (y : Fin (n + m) → Fin q) : ∃ a b, y = Fin.append a b := by
  obtain ⟨⟨a, b⟩, h⟩ := (Fin.appendEquiv n m).surjective y
  exact ⟨a, b, h.symm⟩

/-! ### Obtaining a prover -/

/-- `get_prover` of a statement without disjunctions neither draws nor depends on the random stream. -/
theorem getProver_andOnly (d : Dict Int) {t : Stmt E} (h : AndOnly t) : ∀ (w w' : World) (t' : Stmt E)
    (p? : Option (StmtProver E)),
    (PTree.getProver t d : PM (Option (StmtProver E) × Stmt E)) w = .ok ((p?, t'), w') →
    ∀ rng, (PTree.getProver t d : PM (Option (StmtProver E) × Stmt E)) ⟨w.store, rng⟩ = .ok ((p?, t'), ⟨w'.store, rng⟩) := by
  induction h with
  | leaf l =>
    intro w w' t' p? h rng
    simp only [PTree.getProver] at h ⊢
    obtain ⟨⟨q?, l'⟩, w1, h1, h⟩ := pm_bind.mp h
    simp only [pm_pure_iff, Prod.mk.injEq] at h
    obtain ⟨⟨rfl, rfl⟩, rfl⟩ := h
    have key : (ProverOps.getProver l d : PM (Option (LeafProver E) × Leaf E)) ⟨w.store, rng⟩ =
        .ok ((q?, l'), ⟨w1.store, rng⟩) := by
      cases l with
      | dlrep s =>
        simp only [ProverOps.getProver, DLRepProver.getProver] at h1 ⊢
        obtain ⟨⟨r?, s'⟩, w2, h2, h1⟩ := pm_bind.mp h1
        rw [pm_getStore_bind] at h2
        simp only [pm_pure_iff, Prod.mk.injEq] at h1
        obtain ⟨⟨rfl, rfl⟩, rfl⟩ := h1
        rw [pm_bind]
        refine ⟨(r?, s'), ⟨w2.store, rng⟩, ?_, rfl⟩
        rw [pm_getStore_bind]
        simp only
        split at h2
        · rename_i hc
          rw [if_pos hc]
          rw [pm_pure_iff, Prod.mk.injEq] at h2 ⊢
          exact ⟨h2.1, by rw [← h2.2]⟩
        · rename_i hc
          rw [if_neg hc]
          rw [pm_pure_iff, Prod.mk.injEq] at h2 ⊢
          exact ⟨h2.1, by rw [← h2.2]⟩
      | ext s =>
        simp only [ProverOps.getProver, ExtProver.getProver] at h1 ⊢
        obtain ⟨⟨r?, s'⟩, w2, h2, h1⟩ := pm_bind.mp h1
        rw [pm_getStore_bind, pm_setStore_bind, pm_pure_iff, Prod.mk.injEq] at h2
        simp only [pm_pure_iff, Prod.mk.injEq] at h1
        obtain ⟨⟨rfl, rfl⟩, rfl⟩ := h1
        rw [pm_bind]
        refine ⟨(r?, s'), ⟨w2.store, rng⟩, ?_, rfl⟩
        rw [pm_getStore_bind, pm_setStore_bind, pm_pure_iff, Prod.mk.injEq]
        exact ⟨h2.1, by rw [← h2.2]⟩
    rw [pm_bind_eq key]
    rfl
  | all b subs hf ih =>
    intro w w' t' p? h rng
    simp only [PTree.getProver] at h ⊢
    rw [pm_getStore_bind, pm_setStore_bind] at h ⊢
    by_cases hc : b = true
    · rw [if_pos hc] at h ⊢
      rw [pm_pure_iff, Prod.mk.injEq] at h ⊢
      exact ⟨h.1, by rw [← h.2]⟩
    · rw [if_neg hc] at h ⊢
      obtain ⟨⟨ps, subs'⟩, w1, h1, h⟩ := pm_bind.mp h
      simp only at h
      have key : ∀ (ts ts' : List (Stmt E)) (ps : List (Option (StmtProver E))) (w w' : World),
          (∀ t ∈ ts, t ∈ subs) → PTree.getProverL ts d w = .ok ((ps, ts'), w') →
          PTree.getProverL ts d ⟨w.store, rng⟩ = .ok ((ps, ts'), ⟨w'.store, rng⟩) := by
        intro ts
        induction ts with
        | nil =>
          intro ts' ps w w' _ h
          simp only [PTree.getProverL, pm_pure_iff, Prod.mk.injEq] at h ⊢
          exact ⟨h.1, by rw [← h.2]⟩
        | cons t ts iht =>
          intro ts' ps w w' hsub h
          simp only [PTree.getProverL] at h ⊢
          obtain ⟨⟨p?, t1⟩, w1, h1, h⟩ := pm_bind.mp h
          obtain ⟨⟨ps', ts1⟩, w2, h2, h⟩ := pm_bind.mp h
          simp only [pm_pure_iff, Prod.mk.injEq] at h
          obtain ⟨⟨rfl, rfl⟩, rfl⟩ := h
          rw [pm_bind_eq (ih t (hsub t (by simp)) _ _ _ _ h1 rng),
            pm_bind_eq (iht ts1 ps' w1 w2 (fun t ht => hsub t (by simp [ht])) h2)]
          rfl
      have k1 := key subs subs' ps _ w1 (fun t ht => ht) h1
      rw [pm_bind_eq k1]
      simp only
      cases hall : PTree.allSome ps with
      | none => simp only [hall, raise_ne] at h
      | some ps' =>
        simp only [hall, pm_pure_iff, Prod.mk.injEq] at h ⊢
        exact ⟨h.1, by rw [← h.2]⟩

/-! ### Precommitting -/

section
variable (F : Profile E) (q : Nat) (d : Dict Int) (Z : ExtSpec E → Val E → Prop) (A : Sec → Prop)

theorem leaf_reads {σ : Store} {p : ExtProver E} (hA : ∀ e ∈ d, ¬ A e.1) (h : LeafFit F q d Z A σ (.ext p)) {σ' : Store}
    (hs : Same (Own F A p.stmt.spec) σ σ') :
    ∀ x, F.reads p.stmt.spec x ∨ x ∈ d.map Prod.fst → σ'.key x = σ.key x := by
  obtain ⟨h1, h2, h3, h4, hwA, h5, h6⟩ := h
  rintro x (hx | hx)
  · refine hs x ?_
    by_cases ha : A x
    · exact .inr (h4 x hx ha)
    · exact .inl ha
  · obtain ⟨e, he, rfl⟩ := List.mem_map.mp hx
    exact hs e.1 (.inl (hA e he))

/-- Precommitting of an extended leaf whose constructed statement has no disjunctions. -/
theorem precommit_leaf_plain (hA : ∀ e ∈ d, ¬ A e.1) (p : ExtProver E) {w w1 : World} {v : Val E}
    (h : LeafFit F q d Z A w.store (.ext p)) (hrun : p.stmt.spec.precommit w = .ok (v, w1))
    (hpl : Plain p.stmt.spec) :
    ∃ k t' cp, p.stmt.spec.construct w1.store v = .ok k ∧ Tree.blank t' = Tree.blank k ∧
      Same (fun x => ¬ F.writes p.stmt.spec x) w.store w1.store ∧
      ExtProver.precommit p w = .ok ((v, ⟨⟨p.stmt.spec, p.stmt.simulated, v, some t', p.stmt.verifier⟩,
        p.secretValues, some cp⟩), w1) := by
  obtain ⟨h1, h2, h3, h4, hwA, h5, h6⟩ := h
  obtain ⟨v', w1', k, c1, c2, c3, c4, c5, c6, c7, c8, c9, c10, c11, c12, c13⟩ := h2 w fun x _ => rfl
  rw [hrun] at c1
  injection c1 with c1
  injection c1 with e1 e2
  subst e1; subst e2
  obtain ⟨vs, hvs⟩ := hpl
  obtain ⟨hof, _⟩ := hvs _ _ _ c4
  have hown : ∀ x, F.reads p.stmt.spec x → Own F A p.stmt.spec x := by
    intro x hx
    by_cases ha : A x
    · exact .inr (h4 x hx ha)
    · exact .inl ha
  have hdw : ∀ x, x ∈ d.map Prod.fst → w1.store.key x = w.store.key x := by
    intro x hx
    obtain ⟨e, he, rfl⟩ := List.mem_map.mp hx
    exact c2 e.1 fun hf => hA e he (hwA _ hf)
  obtain ⟨cp, t', w2, g1, g2, g3, g4, g5, g6, g7⟩ := getProver_in (S := Own F A p.stmt.spec) (t := k) (d := d)
    (w := w1) (X := valueOf) c6 c7 (fun x hx => hown x (h3 x (c9 x hx))) (fun x hx => hown x (c10 x hx))
    (fixed_same h6 hdw)
    (uniq_same (S := fun x => x ∈ d.map Prod.fst) hdw (fun e he => List.mem_map_of_mem he) h5)
    (fun e he => .inl (hA e he)) c11
  obtain ⟨g8, _⟩ := getProver_orFree d k hof _ _ _ _ g1
  have hw2 : w2 = w1 := by
    cases w1; cases w2
    simp only at g2 g8
    rw [g2, g8]
  subst hw2
  refine ⟨k, t', cp, c4, g3, c2, ?_⟩
  unfold ExtProver.precommit
  rw [pm_bind_eq hrun, pm_getStore_bind]
  unfold Ext.fullConstruct
  rw [c4, bind_ok, pm_liftE_bind]
  unfold Ext.inner
  rw [pm_liftE_bind, h1, pm_bind_eq g1]
  rfl

/-- What precommitting and preparing the simulation have in common, for one statement. -/
def Twin (σ0 σs : Store) (p : StmtProver E) (n : Nat) (e : Equiv.Perm (Fin n → Fin q)) (vs : List Sec) : Prop :=
  ∀ (y : Fin n → Fin q) (σ' : Store), Same (Scope (leafScope F A) p) σ0 σ' →
    ∃ σ'' v k sk, Same (fun x => ¬ Foot (leafFoot F) p x) σ' σ'' ∧ secrets k = vs ∧ ∀ rest,
      (∃ p1, PTree.precommit p ⟨σ', tape y rest⟩ = .ok ((v, p1), ⟨σ'', rest⟩) ∧ Settled (PTree.stmtOf p1) ∧
        Tree.core (PTree.stmtOf p1) = some k ∧ Tree.skel (PTree.stmtOf p1) = some sk) ∧
      ∀ t, Tree.blank t = Tree.blank (PTree.stmtOf p) → ∃ t', Tree.prepareSim t ⟨σs, tape (e y) rest⟩ =
        .ok (t', ⟨σs, rest⟩) ∧ Settled t' ∧ Tree.core t' = some k ∧ Tree.skel t' = some sk ∧
        pruned t (simPre t') = v

theorem allNone_iff {vs : List (Val E)} : vs.all Val.isNone = true ↔ ∀ v ∈ vs, v = .none := by
  rw [List.all_eq_true]
  constructor
  · intro h v hv; exact isNone_iff.mp (h v hv)
  · intro h v hv; exact isNone_iff.mpr (h v hv)

theorem twin (hA : ∀ e ∈ d, ¬ A e.1) (σ0 σs : Store) : ∀ (p : StmtProver E), Primed (LeafFit F q d Z A σ0) p →
    Apart (leafFoot F) (leafScope F A) p → AndOnly (PTree.stmtOf p) →
    Good (LeafHides F q σ0 σs d) (PTree.stmtOf p) → ∃ n e vs, Twin F q A σ0 σs p n e vs := by
  intro p
  induction p using PTree.ind with
  | leaf p =>
    intro hp _ _ hg
    cases hp with
    | leaf _ hp =>
    cases p with
    | dlrep p =>
      refine ⟨0, Equiv.refl _, p.stmt.secretVars, fun y σ' _ => ⟨σ', .none, .leaf p.stmt.norm,
        shape (.leaf p.stmt), Same.refl _ _, rfl, fun rest => ⟨⟨.leaf (.dlrep p), ?_, .rep _, rfl, ?_⟩, ?_⟩⟩⟩
      · rw [tape_zero]; rfl
      · simp [PTree.stmtOf, ProverOps.stmtOf, Tree.skel, StmtView.skel, shape]
      · intro t ht
        obtain ⟨l', rfl, hl⟩ := Tree.blank_leaf_inv ht
        cases l' with
        | ext s => simp [ProverOps.stmtOf, Blank.blank] at hl
        | dlrep s =>
          simp only [ProverOps.stmtOf, Blank.blank, Leaf.dlrep.injEq] at hl
          refine ⟨.leaf (.dlrep s), ?_, .rep _, ?_, ?_, ?_⟩
          · rw [tape_zero]; rfl
          · simp [Tree.core, StmtView.core, hl]
          · have : Tree.blank (.leaf s : Core E) = Tree.blank (.leaf p.stmt) := by
              simp only [Tree.blank, Blank.blank, hl]
            rw [← (shape_blank _ _ this).1]
            simp [Tree.skel, StmtView.skel, shape]
          · simp [simPre, pruned]
    | ext p =>
      have hg' : LeafHides F q σ0 σs d (.ext p.stmt) := by
        generalize ht : PTree.stmtOf (PTree.leaf (LeafProver.ext p) : StmtProver E) = t at hg
        have ht : (Tree.leaf (Leaf.ext p.stmt) : Stmt E) = t := ht
        cases hg with
        | leaf l hl => cases ht; exact hl
        | and _ _ _ _ => cases ht
        | or _ _ _ _ => cases ht
      obtain ⟨⟨n, e, hi⟩, hpl, _, _, hfor⟩ := hg'
      obtain ⟨vs, hvs⟩ := id hpl
      refine ⟨n, e, vs, fun y σ' hσ' => ?_⟩
      have hσ : Same (Own F A p.stmt.spec) σ0 σ' := fun x hx => hσ' x (.leaf _ x hx)
      obtain ⟨v, σ'', hrun⟩ := hi y σ' (leaf_reads F q d Z A hA hp hσ)
      have hp' : LeafFit F q d Z A σ' (.ext p) := leafFit_stab F q d Z A hA _ _ _ hp hσ
      obtain ⟨k, _, _, hk, _, hsame, _⟩ := precommit_leaf_plain F q d Z A hA p (w := ⟨σ', tape y fun _ => 0⟩) hp'
        (hrun _).1 hpl
      simp only at hk hsame
      obtain ⟨hof, hsec⟩ := hvs _ _ _ hk
      refine ⟨σ'', v, Tree.blank k, .ext p.stmt.spec.cls v (shape k), fun x hx => hsame x fun hf => hx (.leaf _ x hf), ?_,
        fun rest => ⟨?_, ?_⟩⟩
      · rw [(shape_blank _ _ (blank_blank k)).2, hsec]
      · obtain ⟨k', t', cp, hk', hb, _, hpre⟩ := precommit_leaf_plain F q d Z A hA p (w := ⟨σ', tape y rest⟩) hp'
          (hrun _).1 hpl
        simp only at hk'
        rw [hk] at hk'; cases hk'
        refine ⟨.leaf (.ext ⟨⟨p.stmt.spec, p.stmt.simulated, v, some t', p.stmt.verifier⟩, p.secretValues, some cp⟩), ?_,
          .ext _ t' rfl (orFree_blank hof _ hb), ?_, ?_⟩
        · simp only [PTree.precommit, ProverOps.precommit, bind_assoc]
          rw [pm_bind_eq hpre]
          rfl
        · simp [PTree.stmtOf, ProverOps.stmtOf, Tree.core, StmtView.core, core_blank, hb]
        · simp [PTree.stmtOf, ProverOps.stmtOf, Tree.skel, StmtView.skel, skel_core, (shape_blank _ _ hb).1]
      · intro t ht
        obtain ⟨l', rfl, hl⟩ := Tree.blank_leaf_inv ht
        cases l' with
        | dlrep s => simp [ProverOps.stmtOf, Blank.blank] at hl
        | ext s =>
          simp only [ProverOps.stmtOf, Blank.blank, Leaf.ext.injEq, Ext.mk.injEq, and_true] at hl
          obtain ⟨k', hk', e1, e2⟩ := hfor _ _ _ hk
          have hb := blank_of_shape _ _ e1 e2
          refine ⟨.leaf (.ext ⟨s.spec, s.simulated, v, some k', s.verifier⟩), ?_, .ext _ k' rfl (orFree_blank hof _ hb), ?_, ?_, ?_⟩
          · simp only [Tree.prepareSim, StmtOps.prepareSim, Ext.prepareSim, bind_assoc, hl]
            rw [pm_bind_eq (hrun rest).2, pm_getStore_bind]
            simp only [Ext.fullConstruct, hl, hk', bind_ok]
            rfl
          · simp [Tree.core, StmtView.core, core_blank, hb]
          · simp [Tree.skel, StmtView.skel, skel_core, (shape_blank _ _ hb).1, hl]
          · simp [simPre, pruned]
  | or s i st sub sims ih => intro _ _ h; simp only [PTree.stmtOf] at h; cases h
  | and s subs ih =>
    intro hp ha hf hg
    simp only [PTree.stmtOf] at hf hg
    cases hp with
    | and _ _ hne hp =>
    cases ha with
    | and _ _ ha hd =>
    cases hf with
    | all _ _ hf =>
    cases hg with
    | and _ _ _ hg =>
    have loop : ∀ (ps : List (StmtProver E)) (off : Nat), (∀ i, subs[off + i]? = ps[i]?) →
        ∃ (n : Nat) (e : Equiv.Perm (Fin n → Fin q)) (vs : List Sec), ∀ (y : Fin n → Fin q) (σ' : Store),
        Same (fun x => ∃ p ∈ ps, Scope (leafScope F A) p x) σ0 σ' →
        ∃ σ'' vals ks sks, Same (fun x => ∀ p ∈ ps, ¬ Foot (leafFoot F) p x) σ' σ'' ∧ secretsL ks = vs ∧ ∀ rest,
          (∃ ps1, PTree.precommitL ps ⟨σ', tape y rest⟩ = .ok ((vals, ps1), ⟨σ'', rest⟩) ∧
            (∀ t ∈ PTree.stmtOfL ps1, Settled t) ∧
            Tree.coreL (PTree.stmtOfL ps1) = some ks ∧ Tree.skelL (PTree.stmtOfL ps1) = some sks) ∧
          ∀ ts, Tree.blankL ts = Tree.blankL (PTree.stmtOfL ps) → ∃ ts', Tree.prepareSimL ts ⟨σs, tape (e y) rest⟩ =
            .ok (ts', ⟨σs, rest⟩) ∧ (∀ t ∈ ts', Settled t) ∧ Tree.coreL ts' = some ks ∧ Tree.skelL ts' = some sks ∧
            prunedL ts (simPreL ts') = vals := by
      intro ps
      induction ps with
      | nil =>
        intro _ _
        refine ⟨0, Equiv.refl _, [], fun y σ' _ => ⟨σ', [], [], [], Same.refl _ _, rfl, fun rest => ⟨⟨[], ?_, ?_, rfl, rfl⟩, ?_⟩⟩⟩
        · rw [tape_zero]; rfl
        · simp [PTree.stmtOfL]
        · intro ts hts
          cases ts with
          | cons t ts => simp [Tree.blankL, PTree.stmtOfL] at hts
          | nil =>
            refine ⟨[], ?_, by simp, rfl, rfl, rfl⟩
            rw [tape_zero]; rfl
      | cons p ps ihl =>
        intro off hoff
        have h0 : subs[off]? = some p := by simpa using hoff 0
        have hpm : p ∈ subs := List.mem_of_getElem? h0
        have hq : ∀ u ∈ ps, ∀ x, Foot (leafFoot F) p x → ¬ Scope (leafScope F A) u x := by
          intro u hu
          obtain ⟨j, hj⟩ := List.getElem?_of_mem hu
          have hj' : subs[off + (j + 1)]? = some u := by rw [hoff (j + 1)]; simpa using hj
          exact fun x => hd off (off + (j + 1)) p u x (by omega) h0 hj'
        obtain ⟨n, e, vs, h1⟩ := ih p hpm (hp p hpm) (ha p hpm) (hf _ (mem_stmtOfL_stmt hpm)) (hg _ (mem_stmtOfL_stmt hpm))
        obtain ⟨m, f, us, h2⟩ := ihl (off + 1)
          (fun i => by have := hoff (i + 1); rw [show off + 1 + i = off + (i + 1) by omega, this]; simp)
        refine ⟨n + m, sidePerm e f, vs ++ us, fun y σ' hσ' => ?_⟩
        obtain ⟨a, b, rfl⟩ := append_surj y
        obtain ⟨σ1, v, k, sk, i1, i2, i3⟩ := h1 a σ' fun x hx => hσ' x ⟨p, by simp, hx⟩
        obtain ⟨σ2, vals, ks, sks, j1, j2, j3⟩ := h2 b σ1 (by
          rintro x ⟨u, hu, hx⟩
          rw [i1 x fun hf => hq u hu x hf hx]
          exact hσ' x ⟨u, by simp [hu], hx⟩)
        refine ⟨σ2, v :: vals, k :: ks, sk :: sks, ?_, by simp only [secretsL, i2, j2], fun rest => ⟨?_, ?_⟩⟩
        · intro x hx
          rw [j1 x fun u hu => hx u (by simp [hu])]
          exact i1 x (hx p (by simp))
        · obtain ⟨⟨p1, a1, a2, a3, a4⟩, _⟩ := i3 (tape b rest)
          obtain ⟨⟨ps1, b1, b2, b3, b4⟩, _⟩ := j3 rest
          refine ⟨p1 :: ps1, ?_, ?_, ?_, ?_⟩
          · rw [tape_append]
            simp only [PTree.precommitL]
            rw [pm_bind_eq a1, pm_bind_eq b1]
            rfl
          · simp only [PTree.stmtOfL]; exact List.forall_mem_cons.mpr ⟨a2, b2⟩
          · exact Tree.coreL_cons.mpr ⟨k, ks, a3, b3, rfl⟩
          · simp [PTree.stmtOfL, Tree.skelL, a4, b4]
        · intro ts hts
          cases ts with
          | nil => simp [Tree.blankL, PTree.stmtOfL] at hts
          | cons t ts =>
            simp only [PTree.stmtOfL, Tree.blankL, List.cons.injEq] at hts
            obtain ⟨t', a1, a2, a3, a4, a5⟩ := (i3 (tape (f b) rest)).2 t hts.1
            obtain ⟨ts', b1, b2, b3, b4, b5⟩ := (j3 rest).2 ts hts.2
            refine ⟨t' :: ts', ?_, List.forall_mem_cons.mpr ⟨a2, b2⟩, Tree.coreL_cons.mpr ⟨k, ks, a3, b3, rfl⟩, ?_, ?_⟩
            · rw [sidePerm_append, tape_append]
              simp only [Tree.prepareSimL]
              rw [pm_bind_eq a1, pm_bind_eq b1]
              rfl
            · simp [Tree.skelL, a4, b4]
            · simp only [simPreL, prunedL, a5, b5]
    obtain ⟨n, e, vs, h⟩ := loop subs 0 (fun i => by simp)
    refine ⟨n, e, vs, fun y σ' hσ' => ?_⟩
    obtain ⟨σ'', vals, ks, sks, h1, h2, h3⟩ := h y σ' (by
      rintro x ⟨p, hp, hx⟩
      exact hσ' x (.and s subs p x hp hx))
    refine ⟨σ'', PTree.andPrecommitment vals, .and false ks, .all sks, fun x hx => h1 x fun p hp hf => hx (.and s subs p x hp hf), h2,
      fun rest => ⟨?_, ?_⟩⟩
    · obtain ⟨⟨ps1, a1, a2, a3, a4⟩, _⟩ := h3 rest
      refine ⟨.and s ps1, ?_, .and s _ a2, by simp [PTree.stmtOf, Tree.core, a3], by simp [PTree.stmtOf, Tree.skel, a4]⟩
      simp only [PTree.precommit]
      rw [pm_bind_eq a1]
      rfl
    · intro t ht
      simp only [PTree.stmtOf] at ht
      obtain ⟨b, ts, rfl, hb⟩ := Tree.blank_and_inv ht
      obtain ⟨ts', b1, b2, b3, b4, b5⟩ := (h3 rest).2 ts hb
      refine ⟨.and b ts', ?_, .and b ts' b2, by simp [Tree.core, b3], by simp [Tree.skel, b4], ?_⟩
      · simp only [Tree.prepareSim]
        rw [pm_bind_eq b1]
        rfl
      · simp only [simPre, pruned, b5, PTree.andPrecommitment, allNone_iff]

end

/-! ### What does not depend on the state of the leaves -/

theorem good_blank_stmt {Q : Leaf E → Prop} (hQ : ∀ l l' : Leaf E, Blank.blank l' = Blank.blank l → Q l → Q l')
    {t : Stmt E} (h : Good Q t) : ∀ t', Tree.blank t' = Tree.blank t → Good Q t' := by
  induction h with
  | leaf l h =>
    intro t' hb
    obtain ⟨l', rfl, hl⟩ := Tree.blank_leaf_inv hb
    exact .leaf l' (hQ l l' hl h)
  | and b subs hne h ih =>
    intro t' hb
    obtain ⟨s', us, rfl, hl⟩ := Tree.blank_and_inv hb
    refine .and s' us ?_ fun u hu => ?_
    · rintro rfl
      cases subs with
      | nil => exact hne rfl
      | cons => simp [Tree.blankL] at hl
    · obtain ⟨i, hi⟩ := List.getElem?_of_mem hu
      obtain ⟨t, ht, e⟩ := blankL_get? hl hi
      exact ih t (List.mem_of_getElem? ht) u e.symm
  | or b subs hne h ih =>
    intro t' hb
    obtain ⟨s', us, rfl, hl⟩ := Tree.blank_or_inv hb
    refine .or s' us ?_ fun u hu => ?_
    · rintro rfl
      cases subs with
      | nil => exact hne rfl
      | cons => simp [Tree.blankL] at hl
    · obtain ⟨i, hi⟩ := List.getElem?_of_mem hu
      obtain ⟨t, ht, e⟩ := blankL_get? hl hi
      exact ih t (List.mem_of_getElem? ht) u e.symm

theorem andOnly_blank {t : Stmt E} (h : AndOnly t) : ∀ t', Tree.blank t' = Tree.blank t → AndOnly t' := by
  induction h with
  | leaf l =>
    intro t' hb
    obtain ⟨l', rfl, _⟩ := Tree.blank_leaf_inv hb
    exact .leaf l'
  | all b subs h ih =>
    intro t' hb
    obtain ⟨s', us, rfl, hl⟩ := Tree.blank_and_inv hb
    refine .all s' us fun u hu => ?_
    obtain ⟨i, hi⟩ := List.getElem?_of_mem hu
    obtain ⟨t, ht, e⟩ := blankL_get? hl hi
    exact ih t (List.mem_of_getElem? ht) u e.symm

theorem leafHides_blank {F : Profile E} {q : Nat} {σ σs : Store} {d : Dict Int} (l l' : Leaf E)
    (h : Blank.blank l' = Blank.blank l) (hl : LeafHides F q σ σs d l) : LeafHides F q σ σs d l' := by
  cases l <;> cases l' <;> simp only [Blank.blank, Leaf.dlrep.injEq, Leaf.ext.injEq, reduceCtorEq, Ext.mk.injEq,
    and_true] at h
  · trivial
  · simp only [LeafHides, LeafFor] at hl ⊢
    rw [h]; exact hl

/-! ### Which numbers are drawn -/

theorem dset_all {σ : Store} {q : Nat} {x : Sec} : ∀ (D : Dict Nat), (∀ e ∈ D, e.2 = q) →
    Dict.set σ D x q = if D.any (fun e => decide (σ.key e.1 = σ.key x)) then D else D ++ [(x, q)]
  | [], _ => rfl
  | (k, w) :: D, h => by
    have hw : w = q := h (k, w) (by simp)
    have ih := dset_all (σ := σ) (x := x) D fun e he => h e (by simp [he])
    simp only [Dict.set, List.any_cons]
    by_cases hk : σ.key k = σ.key x
    · simp [hk, hw]
    · rw [if_neg hk, ih]
      simp only [hk, decide_false, Bool.false_or]
      split <;> rfl

theorem orderDict_one {σ : Store} {q : Nat} : ∀ (z : List (Sec × Pt E)) (D : Dict Nat) (seen : List Sec),
    (∀ e ∈ D, e.2 = q) → (∀ e ∈ z, e.2.grp.order = q) →
    (∀ x, (seen.any fun y => decide (σ.key y = σ.key x)) = D.any fun e => decide (σ.key e.1 = σ.key x)) →
    z.foldl (fun d sg => Dict.set σ d sg.1 sg.2.grp.order) D =
      D ++ (Tree.dedupGo σ (z.map Prod.fst) seen).map fun x => (x, q)
  | [], D, seen, _, _, _ => by simp [Tree.dedupGo]
  | (x, b) :: z, D, seen, hD, hz, hs => by
    have hb : b.grp.order = q := hz (x, b) (by simp)
    simp only [List.foldl_cons, hb, List.map_cons, Tree.dedupGo]
    rw [dset_all D hD, hs x]
    by_cases hc : (D.any fun e => decide (σ.key e.1 = σ.key x)) = true
    · rw [if_pos hc, if_pos hc]
      exact orderDict_one z D seen hD (fun e he => hz e (by simp [he])) hs
    · rw [if_neg hc, if_neg hc, orderDict_one z (D ++ [(x, q)]) (x :: seen) ?_ (fun e he => hz e (by simp [he])) ?_]
      · simp
      · intro e he
        rcases List.mem_append.mp he with he | he
        · exact hD e he
        · simp only [List.mem_singleton] at he; rw [he]
      · intro y
        simp only [List.any_cons, List.any_append, List.any_nil, Bool.or_false, hs y]
        exact Bool.or_comm _ _

/-- When all groups have the same order the numbers drawn depend on the secrets only. -/
theorem table_one {σ : Store} {q : Nat} {k : Core E} (hs : Solid k) (ho : OneOrder q k) :
    table σ k = (Tree.dedupGo σ (secrets k) []).map fun x => (x, q) := by
  have hwf := wf_of_solid hs
  have go : Tree.orderDict σ (secrets k) (coreBases k) = (Tree.dedupGo σ (secrets k) []).map fun x => (x, q) := by
    unfold Tree.orderDict
    rw [orderDict_one (q := q) _ [] [] (by simp) (fun e he => ho e.1 e.2 (by rw [wf_terms k hwf]; exact he)) (by simp)]
    rw [List.map_fst_zip (le_of_eq (wf_length k hwf)), List.nil_append]
  cases k with
  | leaf s =>
    simp only [table, secrets]
    have : (s.bases.head?.map fun b => b.grp.order).getD 0 = q := by
      have h1 := hs.1
      have h2 := hs.2.1
      have ho' : ∀ x b, (x, b) ∈ s.secretVars.zip s.bases → b.grp.order = q := ho
      cases hb : s.bases with
      | nil => exact (h2 hb).elim
      | cons b bs =>
        cases hv : s.secretVars with
        | nil => rw [hb, hv] at h1; simp at h1
        | cons x xs => exact ho' x b (by rw [hb, hv]; simp)
    rw [this]
  | and b ts => exact go
  | or b ts => exact go

theorem order_of_solid {q : Nat} : ∀ (k : Core E), Solid k → OneOrder q k → q ≠ 0 := by
  intro k
  induction k using Tree.ind with
  | leaf s =>
    intro hs ho
    have h1 := hs.1
    have h2 := hs.2.1
    have ho' : ∀ x b, (x, b) ∈ s.secretVars.zip s.bases → b.grp.order = q := ho
    cases hb : s.bases with
    | nil => exact (h2 hb).elim
    | cons b bs =>
      cases hv : s.secretVars with
      | nil => rw [hb, hv] at h1; simp at h1
      | cons x xs =>
        rw [← ho' x b (by rw [hb, hv]; simp), hs.2.2.1 b (by simp [hb])]
        exact hs.2.2.2
  | and b ts ih =>
    intro hs ho
    cases ts with
    | nil => exact (hs.1 rfl).elim
    | cons t ts =>
      exact ih t (by simp) hs.2.1 fun x c hx => ho x c (by simp only [terms, termsL, List.mem_append]; exact .inl hx)
  | or b ts ih =>
    intro hs ho
    cases ts with
    | nil => exact (hs.1 rfl).elim
    | cons t ts =>
      exact ih t (by simp) hs.2.1 fun x c hx => ho x c (by simp only [terms, termsL, List.mem_append]; exact .inl hx)

theorem order_of_ready {F : Profile E} {q : Nat} {σ : Store} {d : Dict Int} {Z : ExtSpec E → Val E → Prop}
    {t : Stmt E} (h : EveryLeaf (LeafSound F q σ Z) t) (hp : ProvedLeaf (LeafTrue F q σ d Z) t) : q ≠ 0 := by
  induction h with
  | leaf l h =>
    cases l with
    | dlrep s => exact order_of_solid _ h.1 h.2.2
    | ext s =>
      cases hp with
      | leaf _ hp =>
      obtain ⟨_, _, k, _, _, _, _, _, h1, _, h2, _⟩ := hp ⟨σ, fun _ => 0⟩ fun _ _ => rfl
      exact order_of_solid k h1 h2
  | all b subs hne _ ih =>
    cases hp with
    | all _ hp =>
    cases subs with
    | nil => exact (hne rfl).elim
    | cons t ts => exact ih t (by simp) (hp t (by simp))
  | any b subs hne _ ih =>
    cases hp with
    | any _ hex hp =>
    obtain ⟨t, ht, hs⟩ := hex
    exact ih t ht (hp t ht hs)

/-! ### Shifting a block -/

/-- Adding numbers to a block. -/
noncomputable def shiftPerm {m : Nat} (q : Nat) [NeZero q] (g : Fin m → Int) : Equiv.Perm (Fin m → Fin q) :=
  permOf (fun b j => red q (((b j : Nat) : Int) + g j)) (by
    intro b b' h
    funext j
    have := red_inj (congrFun h j)
    refine fin_eq_of_emod ?_
    have e : ((((b j : Nat) : Int) + g j) - (((b' j : Nat) : Int) + g j)) % (q : Int) = 0 :=
      Int.emod_eq_zero_of_dvd (Int.ModEq.dvd (Int.ModEq.symm this))
    have e2 : (q : Int) ∣ ((b j : Nat) : Int) - ((b' j : Nat) : Int) := by
      have := Int.dvd_of_emod_eq_zero e
      simpa using this
    exact (Int.modEq_iff_dvd.mpr e2).symm)

/-- Two blocks after each other, where the second is shifted in dependence of the first. -/
noncomputable def shearPerm {n m : Nat} (q : Nat) [NeZero q] (e : Equiv.Perm (Fin n → Fin q))
    (g : (Fin n → Fin q) → Fin m → Int) : Equiv.Perm (Fin (n + m) → Fin q) :=
  (Fin.appendEquiv n m).symm.trans ((Equiv.prodShear e fun a => shiftPerm q (g a)).trans (Fin.appendEquiv n m))

theorem shearPerm_append {n m q : Nat} [NeZero q] (e : Equiv.Perm (Fin n → Fin q))
    (g : (Fin n → Fin q) → Fin m → Int) (a : Fin n → Fin q) (b : Fin m → Fin q) :
    shearPerm q e g (Fin.append a b) = Fin.append (e a) (fun j => red q (((b j : Nat) : Int) + g a j)) := by
  have : Fin.append a b = Fin.appendEquiv n m (a, b) := rfl
  rw [this]
  simp only [shearPerm, Equiv.trans_apply, Equiv.symm_apply_apply]
  rfl

/-! ### Runs -/

theorem pruned_setSimulated (t : Stmt E) (v : Val E) : pruned (Tree.setSimulated true t) v = pruned t v := by
  cases t with
  | leaf l => cases v <;> simp [Tree.setSimulated, pruned]
  | and b subs => cases v <;> simp [Tree.setSimulated, pruned]
  | or b subs => cases v <;> simp [Tree.setSimulated, pruned]

/-- What the parts of a proof are made of: precommitment, statement, commitment and responses. -/
abbrev Parts (E : Type) := Val E × PId E × Val E × Val E

/-- What `get_nizk_proof` does when the challenge is `c`. -/
def honestView (t : Stmt E) (d : Dict Int) (c : Int) : PM (Parts E) := do
  let (p?, _) ← (PTree.getProver t d : PM (Option (StmtProver E) × Stmt E))
  match p? with
  | none => raise .attributeError
  | some p => do
    let (v, p1) ← PTree.precommit p
    let (com, p2) ← PTree.internalCommit p1 none
    let σ ← getStore
    let id ← liftE (Tree.proofId σ (PTree.stmtOf p2))
    let r ← PTree.computeResponse p2 c
    pure (v, id, com, r)

/-- What `simulate` does. -/
def simView (t : Stmt E) (c : Int) : PM (Sim E × PId E) := do
  let t1 ← Tree.prepareSim (Tree.setSimulated true t)
  let tr ← Tree.simulate t1 none (some c)
  let σ ← getStore
  let id ← liftE (Tree.proofId σ t1)
  pure (tr, id)

theorem simulatedRun_view (env : Env E) (t : Stmt E) (c : Int) : simulatedRunStmt env t c = (do
    let x ← simView t c
    pure (x.1.precommitment, ⟨env.digest x.2, x.1.commitment, x.1.challenge, x.1.responses⟩)) := by
  unfold simulatedRunStmt simulateTop simView
  simp only [bind_assoc, pure_bind]

/-- The parts of a simulation. -/
def simParts (t u : Stmt E) (c : Int) : PM (Parts E) := do
  let x ← simView u c
  pure (pruned t x.1.precommitment, x.2, x.1.commitment, x.1.responses)

/-- Honest and simulated runs of conjunctions with extended parts have the same results. -/
theorem stmt_views (F : Profile E) (q : Nat) (Z : ExtSpec E → Val E → Prop) {t : Stmt E}
    (ht : ∀ s, t ≠ .leaf (.dlrep s)) (hand : AndOnly t) {d : Dict Int} {σ σs : Store}
    (h : Spec.Ready F q (updateSecretValues σ d) d Z t)
    (hl : EveryLeaf (LeafHides F q (updateSecretValues σ d) σs d) t)
    (hn : Named F σ.name t) (hns : Named F σs.name t) :
    ∃ n, ∀ c : Int, ∃ e : Equiv.Perm (Fin n → Fin q), ∀ (y : Fin n → Fin q) (rest : Nat → Nat), ∃ v id com r w w',
      honestView t d c ⟨σ, tape y rest⟩ = .ok ((v, id, com, r), w) ∧
      (∀ env : Env E, honestRunStmt env t d c ⟨σ, tape y rest⟩ = .ok ((v, ⟨env.digest id, com, c, r⟩), w)) ∧
      w.rng = rest ∧
      (∃ tr, simView t c ⟨σs, tape (e y) rest⟩ = .ok ((tr, id), w') ∧ pruned t tr.precommitment = v ∧
        tr.commitment = com ∧ tr.challenge = c ∧ tr.responses = r) ∧ w'.rng = rest := by
  have : NeZero q := ⟨order_of_ready h.sound h.holds⟩
  obtain ⟨p, t0, w1, hget, hst, e1, e2, e3, e4, e5⟩ := getProver_stmt F q d Z (AtLeaf (leafWrites F) t) h.args ht
    (w := ⟨σ, fun _ => 0⟩) h.uniq (good_of_ready h) (sat_of_ready h)
  have hget' := getProver_andOnly d hand _ _ _ _ hget
  simp only at hget' hst
  rw [hst] at e1 e2 e4 hget'
  clear hget
  have hnm : (updateSecretValues σ d).name = σ.name := updateSecretValues_name d σ
  generalize updateSecretValues σ d = σ0 at *
  clear hst
  have hap : Apart (leafFoot F) (leafScope F (AtLeaf (leafWrites F) t)) p :=
    apart_of F q Z _ p e1 e4 (separate_blank F h.separate _ e3)
      fun x hx => atLeaf_blank (leafWrites_blank F) hx t e3.symm
  obtain ⟨n, e, vs, htw⟩ := twin F q d Z _ h.args σ0 σs p e1 hap (andOnly_blank hand _ e3)
    (good_blank_stmt leafHides_blank (good_of_every hl fun l hl => hl) _ e3)
  have htw := fun y => htw y σ0 (Same.refl _ _)
  choose S V K SK hS hvs hrun using htw
  refine ⟨n + (Tree.dedupGo σs vs []).length, fun c => ⟨shearPerm q e fun a j =>
    valueOf ((S a).key (List.get (Tree.dedupGo σs vs []) j)) * c, fun y rest => ?_⟩⟩
  obtain ⟨a, b, rfl⟩ := append_surj y
  rw [shearPerm_append, tape_append, tape_append]
  obtain ⟨⟨p1, hpre, hset, hcore, hskel⟩, _⟩ := hrun a (tape b rest)
  obtain ⟨g1, g2, g3, g4, g5⟩ := precommit_lawL (leafOutside_blank F) valueOf (leafFit_stab F q d Z _ h.args)
    (precommitLeaf_stmt F q d Z _ h.args) p p1 ⟨σ0, tape a (tape b rest)⟩ _ _ e1 e2 hap e5 hpre
  obtain ⟨v', p', w', r1, hname, _⟩ := precommit_runs F q d Z _ h.args h.hashable p valueOf
    ⟨σ0, tape a (tape b rest)⟩ e1 e2 hap e5
  rw [hpre] at r1
  injection r1 with r1
  simp only [Prod.mk.injEq] at r1
  obtain ⟨⟨rfl, rfl⟩, rfl⟩ := r1
  simp only at hname
  have hh := g2 (S a) (Same.refl _ _)
  have hb := built_of F q Z _ p1 valueOf hh (aside_precommit p p1 _ _ _ e4 hpre)
  obtain ⟨k, hk, hsol, hone, hocc⟩ := built_core F q Z _ hb
  rw [hcore] at hk; cases hk
  obtain ⟨pi, hpi, hfp, hcpi, hprim, hhon⟩ := inlP_of F q Z _ p1 valueOf rfl hh hb hset
  rw [hcore] at hcpi
  injection hcpi with hcpi
  have hbl : Tree.blank (PTree.stmtOf pi) = Tree.blank (K a) := by rw [hcpi, blank_blank]
  have hsol' : Solid (PTree.stmtOf pi) := solid_blank hsol hbl
  have hone' : OneOrder q (PTree.stmtOf pi) := oneOrder_blank q hone hbl
  have hsec : secrets (PTree.stmtOf pi) = vs := by rw [(shape_blank _ _ hbl).2, hvs a]
  have hat : ∀ x ∈ vs, AtLeaf (leafOccurs F) t x := by
    intro x hx
    exact atLeaf_blank (leafOccurs_blank F) (hocc x (by rw [hvs a]; exact hx)) t (g5.trans e3).symm
  have hin : ∀ x ∈ vs, ∀ y ∈ vs, (S a).name x = (S a).name y → x = y := by
    intro x hx y hy he
    rw [hname, hnm] at he
    exact hn x y (hat x hx) (hat y hy) he
  have hins : ∀ x ∈ vs, ∀ y ∈ vs, σs.name x = σs.name y → x = y := fun x hx y hy he =>
    hns x y (hat x hx) (hat y hy) he
  have hsee : SameKeys (S a) σs (secrets (PTree.stmtOf pi)) := by
    rw [hsec]
    intro x hx y hy
    constructor
    · intro he; rw [hins x hx y hy (congrArg Prod.fst he)]
    · intro he; rw [hin x hx y hy (congrArg Prod.fst he)]
  have htab : table (S a) (PTree.stmtOf pi) = (Tree.dedupGo σs vs []).map fun x => (x, q) := by
    rw [← table_same hsee, table_one hsol' hone', hsec]
  have hlen : (table (S a) (PTree.stmtOf pi)).length = (Tree.dedupGo σs vs []).length := by rw [htab, List.length_map]
  have hpc := prover_coincide (rng := tape b rest) hprim hhon (good_of_solid _ hsol')
    (composable_orFree (orFree_stmtOf hfp) hone') hfp hsee c
    (tape (fun j => red q (((b j : Nat) : Int) + valueOf ((S a).key (List.get (Tree.dedupGo σs vs []) j)) * c)) rest) (by
      intro j x hj
      rw [htab, List.getElem?_map, Option.map_eq_some_iff] at hj
      obtain ⟨x, hj, rfl⟩ := hj
      obtain ⟨hjl, hj⟩ := List.getElem?_eq_some_iff.mp hj
      rw [tape_lt _ _ hjl, tape_lt _ _ hjl, red_val, Int.emod_emod]
      simp only [List.get_eq_getElem, hj])
  rw [hlen, tape_drop, tape_drop] at hpc
  obtain ⟨com, pi2, resp, hcom, _, hresp, hsims⟩ := hpc
  obtain ⟨p2, hcom', hpi2⟩ := commit_inl p1 pi hpi hfp hset (by rw [hcore, hcpi]) _ _ _ _ _ hcom
  have hresp' := response_inl p2 pi2 hpi2 _ _ _ _ hresp
  have hbt : Tree.blank (Tree.setSimulated true t) = Tree.blank t := by
    cases t with
    | leaf l => cases l <;> rfl
    | and _ _ => rfl
    | or _ _ => rfl
  obtain ⟨t', hprep, hset', hcore', hskel', hprn⟩ := (hrun a (tape (fun j => red q (((b j : Nat) : Int) +
    valueOf ((S a).key (List.get (Tree.dedupGo σs vs []) j)) * c)) rest)).2 (Tree.setSimulated true t) (hbt.trans e3.symm)
  obtain ⟨u, hu, _, hcu⟩ := inlT_core hset'
  rw [hcore'] at hcu
  injection hcu with hcu
  obtain ⟨sim, hsim, s1, s2, s3, _⟩ := hsims u (by rw [← hcu, hcpi])
  have hsim' := simulate_inl hset' u hu _ _ _ _ _ hsim
  obtain ⟨id, _, hid, _⟩ := Tree.proofId_isOk (σ := S a) hskel
  have hv1 : Tree.secretVars (PTree.stmtOf p1) = .ok vs := by
    rw [Tree.core_vars _ _ hcore, secretVars_core]; exact congrArg _ (hvs a)
  have hv2 : Tree.secretVars t' = .ok vs := by
    rw [Tree.core_vars _ _ hcore', secretVars_core]; exact congrArg _ (hvs a)
  have hid' : Tree.proofId σs t' = .ok id := by
    rw [← hid]
    exact ((Tree.proofId_eq_iff hskel hskel' hv1 hv2).mpr ⟨rfl, (sees_apart hin hins).1⟩).symm
  obtain ⟨g7, _, g8, _⟩ := runs_ofL (leafOutside_blank F) (leafFit_stab F q d Z _ h.args)
    (precommitLeaf_stmt F q d Z _ h.args) (commitLeaf_stmt F q Z _) e1 e2 hap e5 _ _ _ _ _ _ hpre hcom'
  refine ⟨V a, id, com, resp, ⟨S a, rest⟩, ⟨σs, rest⟩, ?_, fun env => ?_, rfl, ?_, rfl⟩
  · unfold honestView
    rw [pm_bind_eq (hget' _)]
    simp only
    rw [pm_bind_eq hpre]
    simp only
    rw [pm_bind_eq hcom']
    simp only
    rw [pm_getStore_bind, g8]
    simp only
    rw [hid, pm_liftE_bind, pm_bind_eq hresp']
    rfl
  · unfold honestRunStmt
    rw [pm_bind_eq (hget' _)]
    simp only
    rw [pm_bind_eq hpre]
    simp only
    have hcm : PTree.commit env p1 ⟨S a, tape b rest⟩ = .ok (((env.digest id, com), p2), ⟨S a, rest⟩) := by
      unfold PTree.commit
      rw [pm_getStore_bind, hid, pm_liftE_bind, pm_bind_eq hcom']
      rfl
    rw [pm_bind_eq hcm]
    simp only
    rw [pm_bind_eq hresp']
    rfl
  · refine ⟨{ sim with precommitment := simPre t' }, ?_, by rw [← pruned_setSimulated, hprn], s1, s2, s3⟩
    unfold simView
    rw [pm_bind_eq hprep, pm_bind_eq hsim', pm_getStore_bind]
    simp only
    rw [hid', pm_liftE_bind]
    rfl

/-- Honest and simulated runs of conjunctions with extended parts have the same results. -/
theorem stmt_runs (F : Profile E) (q : Nat) (Z : ExtSpec E → Val E → Prop) {t : Stmt E}
    (ht : ∀ s, t ≠ .leaf (.dlrep s)) (hand : AndOnly t) {d : Dict Int} {σ σs : Store}
    (h : Spec.Ready F q (updateSecretValues σ d) d Z t)
    (hl : EveryLeaf (LeafHides F q (updateSecretValues σ d) σs d) t)
    (hn : Named F σ.name t) (hns : Named F σs.name t) (env : Env E) :
    ∃ n, ∀ c : Int, SameOutputs n q (honestRunStmt env t d c) σ
      (do let (v, T) ← simulatedRunStmt env t c; pure (pruned t v, T)) σs := by
  obtain ⟨n, hv⟩ := stmt_views F q Z ht hand h hl hn hns
  refine ⟨n, fun c => ?_⟩
  obtain ⟨e, hv⟩ := hv c
  refine ⟨e, fun y rest => ?_⟩
  obtain ⟨v, id, com, r, w, w', _, h1, h2, ⟨tr, h3, rfl, rfl, h4, rfl⟩, h5⟩ := hv y rest
  refine ⟨_, w, w', h1 env, h2, ?_, h5⟩
  rw [simulatedRun_view, bind_assoc, pm_bind_eq h3]
  simp only [pure_bind, h4]
  rfl

/-- The same for the parts of proofs. -/
theorem stmt_parts (F : Profile E) (q : Nat) (Z : ExtSpec E → Val E → Prop) {t : Stmt E}
    (ht : ∀ s, t ≠ .leaf (.dlrep s)) (hand : AndOnly t) {d : Dict Int} {σ σs : Store}
    (h : Spec.Ready F q (updateSecretValues σ d) d Z t)
    (hl : EveryLeaf (LeafHides F q (updateSecretValues σ d) σs d) t)
    (hn : Named F σ.name t) (hns : Named F σs.name t) :
    ∃ n, ∀ c : Int, SameOutputs n q (honestView t d c) σ (simParts t t c) σs := by
  obtain ⟨n, hv⟩ := stmt_views F q Z ht hand h hl hn hns
  refine ⟨n, fun c => ?_⟩
  obtain ⟨e, hv⟩ := hv c
  refine ⟨e, fun y rest => ?_⟩
  obtain ⟨v, id, com, r, w, w', h1, _, h2, ⟨tr, h3, rfl, rfl, h4, rfl⟩, h5⟩ := hv y rest
  refine ⟨_, w, w', h1, h2, ?_, h5⟩
  unfold simParts
  rw [pm_bind_eq h3]
  rfl

/-- Proofs in terms of their parts. -/
theorem prove_parts {env : Env E} {t : Stmt E} {d : Dict Int} {msg : String} {w w' : World} {nizk : NIZK E} :
    (∃ t', prove (LeafProver E) env t d msg w = .ok ((nizk, t'), w')) ↔
    ∃ id com, honestView t d nizk.challenge w = .ok ((nizk.precommitment, id, com, nizk.responses), w') ∧
      env.fiatShamir id nizk.precommitment com msg = .ok nizk.challenge ∧ nizk.stmtHash = env.digest id := by
  constructor
  · rintro ⟨t', h⟩
    unfold prove at h
    obtain ⟨⟨p?, t0⟩, w1, h1, h⟩ := pm_bind.mp h
    cases p? with
    | none => exact (raise_ne.mp h).elim
    | some p =>
      simp only at h
      obtain ⟨⟨n, p'⟩, w2, h2, h⟩ := pm_bind.mp h
      rw [pm_pure_iff, Prod.mk.injEq, Prod.mk.injEq] at h
      simp only at h
      obtain ⟨⟨rfl, rfl⟩, rfl⟩ := h
      unfold PTree.getNizkProof at h2
      obtain ⟨⟨v, p1⟩, w3, h3, h2⟩ := pm_bind.mp h2
      obtain ⟨⟨com, p2⟩, w4, h4, h2⟩ := pm_bind.mp h2
      simp only at h2
      rw [pm_getStore_bind, pm_liftE_bind_iff] at h2
      obtain ⟨id, h5, h2⟩ := h2
      rw [pm_liftE_bind_iff] at h2
      obtain ⟨c, h6, h2⟩ := h2
      obtain ⟨r, w5, h7, h2⟩ := pm_bind.mp h2
      rw [pm_pure_iff, Prod.mk.injEq, Prod.mk.injEq] at h2
      obtain ⟨⟨rfl, rfl⟩, rfl⟩ := h2
      refine ⟨id, com, ?_, h6, rfl⟩
      unfold honestView
      rw [pm_bind_eq h1]
      simp only
      rw [pm_bind_eq h3]
      simp only
      rw [pm_bind_eq h4]
      simp only
      rw [pm_getStore_bind, h5, pm_liftE_bind, pm_bind_eq h7]
      rfl
  · rintro ⟨id, com, h, h6, hh⟩
    unfold honestView at h
    obtain ⟨⟨p?, t0⟩, w1, h1, h⟩ := pm_bind.mp h
    cases p? with
    | none => exact (raise_ne.mp h).elim
    | some p =>
      simp only at h
      obtain ⟨⟨v, p1⟩, w3, h3, h2⟩ := pm_bind.mp h
      obtain ⟨⟨com, p2⟩, w4, h4, h2⟩ := pm_bind.mp h2
      simp only at h2
      rw [pm_getStore_bind, pm_liftE_bind_iff] at h2
      obtain ⟨id, h5, h2⟩ := h2
      obtain ⟨r, w5, h7, h2⟩ := pm_bind.mp h2
      rw [pm_pure_iff] at h2
      simp only [Prod.mk.injEq] at h2
      obtain ⟨⟨e1, e2, e3, e4⟩, rfl⟩ := h2
      subst e1 e2 e3 e4
      refine ⟨PTree.stmtOf p2, ?_⟩
      unfold prove
      rw [pm_bind_eq h1]
      simp only
      unfold PTree.getNizkProof
      simp only [bind_assoc]
      rw [pm_bind_eq h3]
      simp only
      rw [pm_bind_eq h4]
      simp only
      rw [pm_getStore_bind, h5, pm_liftE_bind, h6, pm_liftE_bind, pm_bind_eq h7, ← hh]
      rfl

end Zksk
