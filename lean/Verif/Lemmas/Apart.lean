import Verif.SpecApart
import Verif.Lemmas.State
import Verif.Lemmas.Compose
import Verif.Lemmas.Falsy
import Verif.Lemmas.Reuse
import Verif.Lemmas.StmtRun

/-! Secrets of disjunctions inside conjunctions, with extended parts. -/

set_option linter.unusedSectionVars false

namespace Zksk.Apart

open Spec

variable {E : Type} [AddCommGroup E] [DecidableEq E]

theorem varsL_append : ∀ (ls rs : List (Stmt E)) (fs : List Sec), Tree.secretVarsL (ls ++ rs) = .ok fs →
    ∃ a b, Tree.secretVarsL ls = .ok a ∧ Tree.secretVarsL rs = .ok b ∧ fs = a ++ b
  | [], rs, fs, h => ⟨[], fs, rfl, h, rfl⟩
  | t :: ls, rs, fs, h => by
    simp only [List.cons_append, Tree.secretVarsL] at h
    obtain ⟨a, h1, h⟩ := bind_ok_iff.mp h
    obtain ⟨b, h2, h⟩ := bind_ok_iff.mp h
    cases h
    obtain ⟨c, d, h3, h4, rfl⟩ := varsL_append ls rs b h2
    refine ⟨a ++ c, d, ?_, h4, by simp⟩
    simp only [Tree.secretVarsL, h1, h3, bind_ok]

theorem varsL_cons {t : Stmt E} {ts : List (Stmt E)} {fs : List Sec} (h : Tree.secretVarsL (t :: ts) = .ok fs) :
    ∃ a b, Tree.secretVars t = .ok a ∧ Tree.secretVarsL ts = .ok b ∧ fs = a ++ b := by
  simp only [Tree.secretVarsL] at h
  obtain ⟨a, h1, h⟩ := bind_ok_iff.mp h
  obtain ⟨b, h2, h⟩ := bind_ok_iff.mp h
  cases h
  exact ⟨a, b, h1, h2, rfl⟩

theorem varsL_mem {ts : List (Stmt E)} {fs : List Sec} (h : Tree.secretVarsL ts = .ok fs) {t : Stmt E} (ht : t ∈ ts) :
    ∃ a, Tree.secretVars t = .ok a ∧ (∀ x ∈ a, x ∈ fs) ∧ ∀ σ x, Tree.countKey σ a x ≤ Tree.countKey σ fs x := by
  obtain ⟨ls, rs, rfl⟩ := List.append_of_mem ht
  obtain ⟨a, b, _, h2, rfl⟩ := varsL_append _ _ _ h
  obtain ⟨c, d, h3, _, rfl⟩ := varsL_cons h2
  exact ⟨c, h3, fun x hx => by simp [hx], fun σ x => by simp only [countKey_append]; omega⟩

/-- A secret of a representation is a secret of every state of the statement. -/
theorem uses_vars {x : Sec} {l : Leaf E} (hx : LeafSpeaks x l) {t : Stmt E} (h : HasLeaf l t) :
    ∀ (t' : Stmt E) (vs : List Sec), SameStmt t t' → Every OwnLeaf t' → Tree.secretVars t' = .ok vs → x ∈ vs := by
  induction h with
  | leaf =>
    intro t' vs hs ho hv
    cases hs with
    | rep _ s' hl hb hv' =>
      simp only [Tree.secretVars, StmtOps.secretVars] at hv
      cases hv
      rw [hv']; exact hx
    | ext _ s' he =>
      simp only [Tree.secretVars, StmtOps.secretVars, Ext.inner] at hv
      have ho' := ho _ .leaf
      cases hk : s'.constructed with
      | none => simp only [hk, bind_err] at hv; cases hv
      | some k =>
        simp only [hk, bind_ok, secretVars_core] at hv
        cases hv
        obtain ⟨σ, v, k0, h1, _, h2⟩ := ho' k hk
        rw [he] at h1
        have := hx σ v k0 h1
        rw [← h2] at this
        exact this
  | all b subs t ht _ ih =>
    intro t' vs hs ho hv
    cases hs with
    | all _ b' _ subs' hl hsub =>
      obtain ⟨i, hi⟩ := List.mem_iff_getElem?.mp ht
      have hi' : i < subs'.length := by
        have := List.getElem?_eq_some_iff.mp hi
        rw [hl]; exact this.1
      have hu : subs'[i]? = some subs'[i] := List.getElem?_eq_getElem hi'
      obtain ⟨a, h1, h2, _⟩ := varsL_mem (by simpa only [Tree.secretVars] using hv) (List.getElem_mem hi')
      exact h2 x (ih _ a (hsub i t _ hi hu) (fun l hl => ho l (.all _ _ _ (List.getElem_mem hi') hl)) h1)
  | any b subs t ht _ ih =>
    intro t' vs hs ho hv
    cases hs with
    | any _ b' _ subs' hl hsub =>
      obtain ⟨i, hi⟩ := List.mem_iff_getElem?.mp ht
      have hi' : i < subs'.length := by
        have := List.getElem?_eq_some_iff.mp hi
        rw [hl]; exact this.1
      have hu : subs'[i]? = some subs'[i] := List.getElem?_eq_getElem hi'
      obtain ⟨a, h1, h2, _⟩ := varsL_mem (by simpa only [Tree.secretVars] using hv) (List.getElem_mem hi')
      exact h2 x (ih _ a (hsub i t _ hi hu) (fun l hl => ho l (.any _ _ _ (List.getElem_mem hi') hl)) h1)

/-- Secrets of the disjunction and of another part are counted separately. -/
theorem orPart_count {t u : Stmt E} {rest : List (Stmt E)} (h : OrPart t u rest) : ∀ fs, Tree.secretVars t = .ok fs →
    ∃ vs, Tree.secretVars u = .ok vs ∧ (∀ σ x, Tree.countKey σ vs x ≤ Tree.countKey σ fs x) ∧
      ∀ v ∈ rest, ∃ ws, Tree.secretVars v = .ok ws ∧
        ∀ σ x, Tree.countKey σ vs x + Tree.countKey σ ws x ≤ Tree.countKey σ fs x := by
  induction h with
  | here b us => intro fs hf; exact ⟨fs, hf, fun _ _ => le_refl _, by simp⟩
  | down b ls t rs u rest h ih =>
    intro fs hf
    simp only [Tree.secretVars] at hf
    obtain ⟨a, c, h1, h2, rfl⟩ := varsL_append _ _ _ hf
    obtain ⟨m, e, h3, h4, rfl⟩ := varsL_cons h2
    obtain ⟨vs, h5, h6, h7⟩ := ih m h3
    refine ⟨vs, h5, fun σ x => ?_, fun v hv => ?_⟩
    · have := h6 σ x
      simp only [countKey_append]; omega
    · simp only [List.mem_append] at hv
      rcases hv with (hv | hv) | hv
      · obtain ⟨ws, k1, _, k2⟩ := varsL_mem h1 hv
        refine ⟨ws, k1, fun σ x => ?_⟩
        have := h6 σ x
        have := k2 σ x
        simp only [countKey_append]; omega
      · obtain ⟨ws, k1, _, k2⟩ := varsL_mem h4 hv
        refine ⟨ws, k1, fun σ x => ?_⟩
        have := h6 σ x
        have := k2 σ x
        simp only [countKey_append]; omega
      · obtain ⟨ws, k1, k2⟩ := h7 v hv
        refine ⟨ws, k1, fun σ x => ?_⟩
        have := k2 σ x
        simp only [countKey_append]; omega

theorem reoccurL_mem {σ : Store} {fb : List Sec} : ∀ {ts : List (Stmt E)}, Tree.reoccurL σ fb ts = .ok () →
    ∀ t ∈ ts, Tree.reoccur σ fb t = .ok ()
  | [], _ => by simp
  | a :: ts, h => by
    simp only [Tree.reoccurL] at h
    obtain ⟨_, h1, h2⟩ := bind_ok_iff.mp h
    intro t ht
    rcases List.mem_cons.mp ht with rfl | ht
    · exact h1
    · exact reoccurL_mem h2 t ht

theorem orPart_reoccur {σ : Store} {fb : List Sec} {t u : Stmt E} {rest : List (Stmt E)} (h : OrPart t u rest) :
    Tree.reoccur σ fb t = .ok () → ∀ vs, Tree.secretVars u = .ok vs → ∀ x ∈ vs,
      Tree.countKey σ fb x ≤ Tree.countKey σ vs x := by
  induction h with
  | here b us =>
    intro h vs hv x hx
    simp only [Tree.secretVars] at hv
    simp only [Tree.reoccur, hv, bind_ok] at h
    by_contra hc
    rw [if_pos] at h
    · cases h
    · rw [List.any_eq_true]
      exact ⟨x, hx, by simpa using hc⟩
  | down b ls t rs u rest _ ih =>
    intro h
    simp only [Tree.reoccur] at h
    exact ih (reoccurL_mem h t (by simp))

/-- The same place in another state of the statement. -/
theorem orPart_same {t u : Stmt E} {rest : List (Stmt E)} (h : OrPart t u rest) : ∀ t', SameStmt t t' →
    ∃ u' rest', OrPart t' u' rest' ∧ SameStmt u u' ∧ ∀ v ∈ rest, ∃ v' ∈ rest', SameStmt v v' := by
  induction h with
  | here b us =>
    intro t' hs
    cases hs with
    | any _ b' _ us' hl h => exact ⟨_, _, .here b' us', .any _ _ _ _ hl h, by simp⟩
  | down b ls t rs u rest h ih =>
    intro t' hs
    cases hs with
    | all _ b' _ subs' hl hsub =>
      have hi : ls.length < subs'.length := by rw [hl]; simp
      have e : subs' = subs'.take ls.length ++ subs'[ls.length] :: subs'.drop (ls.length + 1) := by
        rw [← List.drop_eq_getElem_cons hi, List.take_append_drop]
      obtain ⟨u', rest', k1, k2, k3⟩ := ih subs'[ls.length]
        (hsub ls.length t _ (by simp) (List.getElem?_eq_getElem hi))
      rw [e]
      refine ⟨u', _, .down b' _ _ _ u' rest' k1, k2, fun v hv => ?_⟩
      simp only [List.mem_append] at hv
      rcases hv with (hv | hv) | hv
      · obtain ⟨i, hlt, rfl⟩ := List.mem_iff_getElem.mp hv
        have hi' : i < subs'.length := by omega
        refine ⟨subs'[i], ?_, hsub i _ _ ?_ (List.getElem?_eq_getElem hi')⟩
        · refine List.mem_append_left _ (List.mem_append_left _ ?_)
          exact List.mem_iff_getElem.mpr ⟨i, by simp; omega, by simp⟩
        · rw [List.getElem?_append_left hlt, List.getElem?_eq_getElem hlt]
      · obtain ⟨i, hlt, rfl⟩ := List.mem_iff_getElem.mp hv
        have hl' : subs'.length = ls.length + (rs.length + 1) := by rw [hl]; simp
        have hi' : ls.length + 1 + i < subs'.length := by omega
        refine ⟨subs'[ls.length + 1 + i], ?_, hsub (ls.length + 1 + i) _ _ ?_ (List.getElem?_eq_getElem hi')⟩
        · refine List.mem_append_left _ (List.mem_append_right _ ?_)
          exact List.mem_iff_getElem.mpr ⟨i, by simp; omega, by simp⟩
        · rw [List.getElem?_append_right (by omega),
            show ls.length + 1 + i - ls.length = i + 1 by omega, List.getElem?_cons_succ, List.getElem?_eq_getElem hlt]
      · obtain ⟨v', h1, h2⟩ := k3 v hv
        exact ⟨v', List.mem_append_right _ h1, h2⟩

theorem orPart_hasLeaf {t u : Stmt E} {rest : List (Stmt E)} (h : OrPart t u rest) {l : Leaf E} (hl : HasLeaf l u) :
    HasLeaf l t := by
  induction h with
  | here => exact hl
  | down b ls t rs u rest _ ih => exact .all _ _ t (by simp) (ih hl)

theorem orPart_every {G : Leaf E → Prop} {t u : Stmt E} {rest : List (Stmt E)} (h : OrPart t u rest) (hG : Every G t) :
    Every G u ∧ ∀ v ∈ rest, Every G v := by
  induction h with
  | here => exact ⟨hG, by simp⟩
  | down b ls t rs u rest _ ih =>
    obtain ⟨h1, h2⟩ := ih fun l hl => hG l (.all _ _ t (by simp) hl)
    refine ⟨h1, fun v hv => ?_⟩
    simp only [List.mem_append] at hv
    rcases hv with (hv | hv) | hv
    · exact fun l hl => hG l (.all _ _ v (by simp [hv]) hl)
    · exact fun l hl => hG l (.all _ _ v (by simp [hv]) hl)
    · exact h2 v hv

/-- The methods of leaves keep `OwnLeaf`. -/
theorem ownLaws (d : Dict Int) : ReuseLaws (E := E) (LeafProver E) (fun _ => True) d (fun _ : Leaf E => True)
    (fun l l' => OwnLeaf l → OwnLeaf l') where
  refl _ h := h
  trans _ _ _ h1 h2 h := h2 (h1 h)
  lasting _ _ _ h := h
  update _ h := h
  simulate _ _ _ _ _ _ _ _ := trivial
  prepare l l' w w' _ _ h := by
    refine ⟨trivial, fun _ => ?_⟩
    cases l with
    | dlrep s =>
      simp only [StmtOps.prepareSim] at h
      obtain ⟨s', w1, h1, h⟩ := pm_bind.mp h
      rw [pm_pure_iff, Prod.mk.injEq] at h
      rw [← h.1]; trivial
    | ext s =>
      simp only [StmtOps.prepareSim, Ext.prepareSim, Ext.fullConstruct] at h
      obtain ⟨s', w1, h1, h⟩ := pm_bind.mp h
      obtain ⟨v, w2, _, h1⟩ := pm_bind.mp h1
      rw [pm_getStore_bind, liftE_iff] at h1
      obtain ⟨h1, _⟩ := h1
      obtain ⟨t, ht, h1⟩ := bind_ok_iff.mp h1
      injection h1 with h1
      rw [pm_pure_iff, Prod.mk.injEq] at h
      rw [← h.1]
      have e : s' = _ := h1.symm
      rw [e]
      intro k hk
      cases hk
      exact ⟨_, _, _, ht, rfl, rfl⟩
  getProver l l' p? w w' _ _ h := by
    refine ⟨trivial, ?_⟩
    cases l with
    | dlrep s =>
      simp only [ProverOps.getProver] at h
      obtain ⟨⟨q?, s'⟩, w1, h1, h⟩ := pm_bind.mp h
      rw [pm_pure_iff, Prod.mk.injEq, Prod.mk.injEq] at h
      rw [← h.1.1, ← h.1.2]
      refine ⟨fun _ => trivial, fun p hp _ => ?_⟩
      cases q? with
      | none => cases hp
      | some q => cases hp; trivial
    | ext s =>
      simp only [ProverOps.getProver] at h
      obtain ⟨⟨q?, s'⟩, w1, h1, h⟩ := pm_bind.mp h
      rw [pm_pure_iff, Prod.mk.injEq, Prod.mk.injEq] at h
      rw [← h.1.1, ← h.1.2]
      simp only [ExtProver.getProver] at h1
      rw [pm_getStore_bind, pm_setStore_bind, pm_pure_iff, Prod.mk.injEq, Prod.mk.injEq] at h1
      rw [← h1.1.1, ← h1.1.2]
      refine ⟨fun h => h, fun p hp h => ?_⟩
      simp only [Option.map_some, Option.some.injEq] at hp
      subst hp; exact h
  precommit p p' v w w' h := by
    intro ho
    cases p with
    | dlrep p =>
      simp only [ProverOps.precommit, pm_pure_iff, Prod.mk.injEq] at h
      rw [← h.1.2]; trivial
    | ext p =>
      simp only [ProverOps.precommit] at h
      obtain ⟨⟨v1, p1⟩, w1, h1, h⟩ := pm_bind.mp h
      rw [pm_pure_iff, Prod.mk.injEq, Prod.mk.injEq] at h
      rw [← h.1.2]
      simp only [ExtProver.precommit] at h1
      obtain ⟨v2, w2, _, h1⟩ := pm_bind.mp h1
      rw [pm_getStore_bind, pm_liftE_bind_iff] at h1
      obtain ⟨s', h2, h1⟩ := h1
      rw [pm_liftE_bind_iff] at h1
      obtain ⟨t, ht, h1⟩ := h1
      obtain ⟨⟨cp, t'⟩, w3, h3, h1⟩ := pm_bind.mp h1
      rw [pm_pure_iff, Prod.mk.injEq, Prod.mk.injEq] at h1
      rw [← h1.1.2]
      simp only [Ext.fullConstruct] at h2
      obtain ⟨t2, h4, h2⟩ := bind_ok_iff.mp h2
      injection h2 with h2
      subst h2
      cases ht
      intro k hk
      cases hk
      have hb := (getProver_keeps keepCore _ _ _ _ _ _ h3).1
      exact ⟨_, _, _, h4, shape_blank _ _ hb⟩
  commit p p' d v w w' h := by
    intro ho
    cases p with
    | dlrep p =>
      simp only [ProverOps.internalCommit] at h
      obtain ⟨⟨v1, p1⟩, w1, h1, h⟩ := pm_bind.mp h
      rw [pm_pure_iff, Prod.mk.injEq, Prod.mk.injEq] at h
      rw [← h.1.2]; trivial
    | ext p =>
      simp only [ProverOps.internalCommit] at h
      obtain ⟨⟨v1, p1⟩, w1, h1, h⟩ := pm_bind.mp h
      rw [pm_pure_iff, Prod.mk.injEq, Prod.mk.injEq] at h
      rw [← h.1.2]
      simp only [ExtProver.internalCommit] at h1
      cases hc : p.stmt.constructed with
      | none => simp only [hc] at h1; exact (raise_ne.mp h1).elim
      | some t =>
        simp only [hc] at h1
        cases hp : p.constructed with
        | none => simp only [hp] at h1; exact (raise_ne.mp h1).elim
        | some cp =>
          simp only [hp] at h1
          obtain ⟨⟨v2, cp'⟩, w2, _, h1⟩ := pm_bind.mp h1
          rw [pm_pure_iff, Prod.mk.injEq, Prod.mk.injEq] at h1
          rw [← h1.1.2]
          exact ho
  fresh l := by cases l <;> exact fun h => h
  process σ l l' v h := by
    intro _
    cases l with
    | dlrep s =>
      simp only [StmtOps.process, Except.map, Except.ok.injEq] at h
      rw [← h]; trivial
    | ext s =>
      simp only [StmtOps.process, Ext.process, Ext.fullConstruct] at h
      cases hc : s.spec.construct σ v with
      | error e => simp [hc, bind, Except.bind, Except.map] at h
      | ok t =>
        simp only [hc, bind_ok, Except.map, Except.ok.injEq] at h
        rw [← h]
        intro k hk
        cases hk
        exact ⟨_, _, _, hc, rfl, rfl⟩

theorem own_rel {t t' : Stmt E} (h : TRel (fun l l' : Leaf E => OwnLeaf l → OwnLeaf l') t t') (ho : Every OwnLeaf t) :
    Every OwnLeaf t' := by
  intro l' hl'
  obtain ⟨l, h1, h2⟩ := hasLeaf_rel hl' h
  exact h2 (ho l h1)

/-- What a commitment has checked. -/
theorem commit_checked {p p' : PTree E (Leaf E) (LeafProver E)} {r : Option (Dict Int)} {w w' : World} {com : Val E}
    (h : PTree.internalCommit p r w = .ok ((com, p'), w')) :
    Tree.validateComposition w.store (PTree.stmtOf p) = .ok () := by
  cases p with
  | leaf q => rfl
  | or b1 i stmts sub sims =>
    simp only [PTree.internalCommit] at h
    rw [pm_getStore_bind, pm_liftE_bind_iff] at h
    obtain ⟨_, h7, _⟩ := h
    exact h7
  | and b1 ps =>
    simp only [PTree.internalCommit] at h
    rw [pm_getStore_bind, pm_liftE_bind_iff] at h
    obtain ⟨_, h7, _⟩ := h
    exact h7

/-- The statement of the prover after `precommit()`. -/
theorem precommit_own {t t1 : Stmt E} {d : Dict Int} {p p1 : PTree E (Leaf E) (LeafProver E)} {v : Val E}
    {w w1 w2 w3 : World} (ho : Every OwnLeaf t) (h1 : PTree.getProver t d w = .ok ((some p, t1), w1))
    (h5 : PTree.precommit p w2 = .ok ((v, p1), w3)) :
    SameStmt t (PTree.stmtOf p1) ∧ Every OwnLeaf (PTree.stmtOf p1) := by
  have e1 := (getProver_keeps keepLeaf d _ _ _ _ _ h1).2 p rfl
  have e2 := precommit_keeps keepLeaf _ _ _ _ _ h5
  have o1 := (getProver_rel (ownLaws d) _ _ _ _ _ (fun _ _ => trivial) trivial h1).2.2 p rfl
  exact ⟨(sameStmt_iff _ _).mpr (e2.trans e1), own_rel (precommit_rel (ownLaws d) _ _ _ _ _ h5) (own_rel o1 ho)⟩

/-- What `prove()` has checked. -/
theorem prove_checked {env : Env E} {t : Stmt E} {d : Dict Int} {msg : String} {w w' : World}
    {nizk : NIZK E} {t' : Stmt E} (ho : Every OwnLeaf t)
    (h : prove (LeafProver E) env t d msg w = .ok ((nizk, t'), w')) :
    ∃ (σ : Store) (t1 : Stmt E), SameStmt t t1 ∧ Every OwnLeaf t1 ∧ Tree.validateComposition σ t1 = .ok () := by
  unfold prove at h
  obtain ⟨⟨p?, t1⟩, w1, h1, h⟩ := pm_bind.mp h
  cases p? with
  | none => exact (raise_ne.mp h).elim
  | some p =>
    simp only at h
    obtain ⟨⟨n, p'⟩, w2, h2, h⟩ := pm_bind.mp h
    unfold PTree.getNizkProof at h2
    obtain ⟨⟨v, p1⟩, w5, h5, h2⟩ := pm_bind.mp h2
    obtain ⟨⟨com, p2⟩, w6, h6, h2⟩ := pm_bind.mp h2
    obtain ⟨k1, k2⟩ := precommit_own ho h1 h5
    exact ⟨w5.store, _, k1, k2, commit_checked h6⟩

/-- The statement of the prover, before and after `precommit()`. -/
theorem prover_own {t t1 : Stmt E} {d : Dict Int} {p q : PTree E (Leaf E) (LeafProver E)} {w w1 : World}
    (ho : Every OwnLeaf t) (hp : PTree.getProver t d w = .ok ((some p, t1), w1))
    (hq : q = p ∨ ∃ w2 w3 pre, PTree.precommit p w2 = .ok ((pre, q), w3)) :
    SameStmt t (PTree.stmtOf q) ∧ Every OwnLeaf (PTree.stmtOf q) := by
  rcases hq with rfl | ⟨w2, w3, pre, h5⟩
  · exact ⟨(sameStmt_iff _ _).mpr ((getProver_keeps keepLeaf d _ _ _ _ _ hp).2 q rfl),
      own_rel ((getProver_rel (ownLaws d) _ _ _ _ _ (fun _ _ => trivial) trivial hp).2.2 q rfl) ho⟩
  · exact precommit_own ho hp h5

/-- A prover whose statement cannot pass the check does not commit. -/
theorem never_commits {env : Env E} {t t1 : Stmt E} {d : Dict Int} {p : PTree E (Leaf E) (LeafProver E)} {w w1 : World}
    (ho : Every OwnLeaf t) (hp : PTree.getProver t d w = .ok ((some p, t1), w1))
    (hno : ∀ (σ : Store) (t' : Stmt E), SameStmt t t' → Every OwnLeaf t' → Tree.validateComposition σ t' = .ok () → False) :
    (∀ q, (q = p ∨ ∃ w2 w3 pre, PTree.precommit p w2 = .ok ((pre, q), w3)) → ∀ w4,
      (∀ out, PTree.commit env q w4 ≠ .ok out) ∧ ∀ r out, PTree.commitGiven env q r w4 ≠ .ok out) ∧
    ∀ σv tv w2 out, sigmaProtocol env σv tv p w2 ≠ .ok out := by
  have key : ∀ q, (q = p ∨ ∃ w2 w3 pre, PTree.precommit p w2 = .ok ((pre, q), w3)) → ∀ w4,
      (∀ out, PTree.commit env q w4 ≠ .ok out) ∧ ∀ r out, PTree.commitGiven env q r w4 ≠ .ok out := by
    intro q hq w4
    obtain ⟨k1, k2⟩ := prover_own ho hp hq
    constructor
    · rintro ⟨out, w5⟩ h
      unfold PTree.commit at h
      rw [pm_getStore_bind, pm_liftE_bind_iff] at h
      obtain ⟨_, _, h⟩ := h
      obtain ⟨⟨com, p2⟩, w6, h6, _⟩ := pm_bind.mp h
      exact hno _ _ k1 k2 (commit_checked h6)
    · rintro r ⟨out, w5⟩ h
      unfold PTree.commitGiven at h
      rw [pm_getStore_bind, pm_liftE_bind_iff] at h
      obtain ⟨_, _, h⟩ := h
      obtain ⟨⟨com, p2⟩, w6, h6, _⟩ := pm_bind.mp h
      exact hno _ _ k1 k2 (commit_checked h6)
  refine ⟨key, ?_⟩
  rintro σv tv w2 ⟨out, w'⟩ h
  unfold sigmaProtocol at h
  obtain ⟨⟨v, p1⟩, w3, h5, h⟩ := pm_bind.mp h
  rw [pm_liftE_bind_iff] at h
  obtain ⟨t2, _, h⟩ := h
  obtain ⟨⟨c, p2⟩, w6, h6, _⟩ := pm_bind.mp h
  exact (key _ (.inr ⟨_, _, _, h5⟩) w3).1 _ h6

/-- The statement after `precommit()` without extended parts. -/
theorem regular_core {t : Stmt E} (h : Regular t) : ∀ (t' : Stmt E) (vs : List Sec), SameStmt t t' → Every OwnLeaf t' →
    Tree.secretVars t' = .ok vs → ∃ k, Tree.core t' = some k ∧ WellFormed k ∧
      ∀ x n, UsesOrder x n t → ∃ b, (x, b) ∈ terms k ∧ b.grp.order = n := by
  have lists : ∀ ts : List (Stmt E), (∀ t ∈ ts, ∀ (t' : Stmt E) (vs : List Sec), SameStmt t t' → Every OwnLeaf t' →
      Tree.secretVars t' = .ok vs → ∃ k, Tree.core t' = some k ∧ WellFormed k ∧
        ∀ x n, UsesOrder x n t → ∃ b, (x, b) ∈ terms k ∧ b.grp.order = n) →
      ∀ (ts' : List (Stmt E)) (vs : List Sec), ts'.length = ts.length →
        (∀ (i : Nat) t t', ts[i]? = some t → ts'[i]? = some t' → SameStmt t t') → (∀ t ∈ ts', Every OwnLeaf t) →
        Tree.secretVarsL ts' = .ok vs → ∃ ks, Tree.coreL ts' = some ks ∧ WellFormedL ks ∧ ks.length = ts.length ∧
          ∀ x n, ∀ t ∈ ts, UsesOrder x n t → ∃ b, (x, b) ∈ termsL ks ∧ b.grp.order = n := by
    intro ts
    induction ts with
    | nil =>
      intro _ ts' vs hl _ _ _
      cases List.length_eq_zero_iff.mp hl
      exact ⟨[], rfl, trivial, rfl, by simp⟩
    | cons t ts ih =>
      intro hm ts' vs hl hs ho hv
      cases ts' with
      | nil => simp at hl
      | cons t' ts' =>
        obtain ⟨a, c, h1, h2, _⟩ := varsL_cons hv
        obtain ⟨k, k1, k2, k3⟩ := hm t (by simp) t' a (hs 0 t t' rfl rfl) (ho t' (by simp)) h1
        obtain ⟨ks, m1, m2, m3, m4⟩ := ih (fun u hu => hm u (by simp [hu])) ts' c (by simpa using hl)
          (fun i u u' hu hu' => hs (i + 1) u u' (by simpa using hu) (by simpa using hu')) (fun u hu => ho u (by simp [hu])) h2
        refine ⟨k :: ks, by simp only [Tree.coreL, k1, m1]; rfl, ⟨k2, m2⟩, by simp [m3], fun x n u hu hx => ?_⟩
        rcases List.mem_cons.mp hu with rfl | hu
        · obtain ⟨b, hb, hn⟩ := k3 x n hx
          exact ⟨b, by simp [termsL, hb], hn⟩
        · obtain ⟨b, hb, hn⟩ := m4 x n u hu hx
          exact ⟨b, by simp [termsL, hb], hn⟩
  induction h with
  | rep s h =>
    intro t' vs hs ho hv
    cases hs with
    | rep _ s' hl hb hx =>
      refine ⟨.leaf s'.norm, rfl, ?_, ?_⟩
      · show s'.secretVars.length = s'.bases.length
        rw [hb, hx]; exact h
      · rintro x n ⟨l, hl, hx'⟩
        cases hl
        show ∃ b, (x, b) ∈ s'.secretVars.zip s'.bases ∧ _
        rw [hb, hx]; exact hx'
  | ext s h =>
    intro t' vs hs ho hv
    cases hs with
    | ext _ s' he =>
      simp only [Tree.secretVars, StmtOps.secretVars, Ext.inner] at hv
      cases hk : s'.constructed with
      | none => simp only [hk, bind_err] at hv; cases hv
      | some k =>
        obtain ⟨σ, v, k0, h1, h2, h3⟩ := ho _ .leaf k hk
        rw [he] at h1
        have hb := blank_of_shape k k0 h2 h3
        refine ⟨Tree.blank k, ?_, ?_, ?_⟩
        · show s'.constructed.bind Tree.core = _
          rw [hk]; exact core_blank k
        · rw [hb, wf_blank]; exact h σ v k0 h1
        · rintro x n ⟨l, hl, hx'⟩
          cases hl
          rw [hb, terms_blank]
          exact hx' σ v k0 h1
  | all b ts hne h ih =>
    intro t' vs hs ho hv
    cases hs with
    | all _ b' _ ts' hl hsub =>
      obtain ⟨ks, m1, m2, m3, m4⟩ := lists ts ih ts' vs hl hsub (fun u hu l hl => ho l (.all _ _ u hu hl))
        (by simpa only [Tree.secretVars] using hv)
      refine ⟨.and false ks, by simp only [Tree.core, m1]; rfl, ⟨?_, m2⟩, ?_⟩
      · intro e; rw [e] at m3; exact hne (List.length_eq_zero_iff.mp m3.symm)
      · rintro x n ⟨l, hl, hx⟩
        cases hl with
        | all _ _ u hu hl => exact m4 x n u hu ⟨l, hl, hx⟩
  | any b ts hne h ih =>
    intro t' vs hs ho hv
    cases hs with
    | any _ b' _ ts' hl hsub =>
      obtain ⟨ks, m1, m2, m3, m4⟩ := lists ts ih ts' vs hl hsub (fun u hu l hl => ho l (.any _ _ u hu hl))
        (by simpa only [Tree.secretVars] using hv)
      refine ⟨.or false ks, by simp only [Tree.core, m1]; rfl, ⟨?_, m2⟩, ?_⟩
      · intro e; rw [e] at m3; exact hne (List.length_eq_zero_iff.mp m3.symm)
      · rintro x n ⟨l, hl, hx⟩
        cases hl with
        | any _ _ u hu hl => exact m4 x n u hu ⟨l, hl, hx⟩

/-- A secret of a disjunction that another part has: the check fails. -/
theorem shared_refused {b : Bool} {ts : List (Stmt E)} {u v : Stmt E} {rest : List (Stmt E)}
    (h : OrPart (.and b ts) u rest) (hv : v ∈ rest) {x : Sec} (hxu : SpeaksOf x u) (hxv : SpeaksOf x v)
    {σ : Store} {t1 : Stmt E} (hs : SameStmt (.and b ts) t1) (ho' : Every OwnLeaf t1)
    (hc : Tree.validateComposition σ t1 = .ok ()) : False := by
  obtain ⟨b1, ts1, rfl⟩ : ∃ b1 ts1, t1 = .and b1 ts1 := by cases hs; exact ⟨_, _, rfl⟩
  obtain ⟨u', rest', h1, h2, h3⟩ := orPart_same h _ hs
  obtain ⟨v', hv', h4⟩ := h3 v hv
  simp only [Tree.validateComposition] at hc
  obtain ⟨_, _, hc⟩ := bind_ok_iff.mp hc
  obtain ⟨fs, hf, hc⟩ := bind_ok_iff.mp hc
  obtain ⟨vs, k1, _, k3⟩ := orPart_count h1 fs hf
  obtain ⟨ws, k4, k5⟩ := k3 v' hv'
  obtain ⟨s, hl, hx⟩ := hxu
  obtain ⟨s', hl', hx'⟩ := hxv
  obtain ⟨o1, o2⟩ := orPart_every h1 ho'
  have m1 := uses_vars hx hl _ _ h2 o1 k1
  have m2 := uses_vars hx' hl' _ _ h4 (o2 _ hv') k4
  have := orPart_reoccur h1 hc vs k1 x m1
  have := k5 σ x
  have : 0 < Tree.countKey σ ws x := countKey_pos.mpr ⟨x, m2, rfl⟩
  omega

/-- A secret used with groups of different orders: the check fails. -/
theorem orders_refused {t : Stmt E} (hcomp : ∀ l, t ≠ .leaf l) (hreg : Regular t) {x : Sec} {n m : Nat}
    (hn : UsesOrder x n t) (hm : UsesOrder x m t) (hnm : n ≠ m) {σ : Store} {t1 : Stmt E} (hs : SameStmt t t1)
    (ho' : Every OwnLeaf t1) (hc : Tree.validateComposition σ t1 = .ok ()) : False := by
  have hv : Tree.validateGroupOrders σ t1 = .ok () := by
    cases hs with
    | rep s s' => exact (hcomp _ rfl).elim
    | ext s s' => exact (hcomp _ rfl).elim
    | all _ b _ ts =>
      simp only [Tree.validateComposition] at hc
      obtain ⟨_, h, _⟩ := bind_ok_iff.mp hc
      exact h
    | any _ b _ ts => exact hc
  have hv' := hv
  unfold Tree.validateGroupOrders at hv'
  obtain ⟨_, _, hv'⟩ := bind_ok_iff.mp hv'
  obtain ⟨vs, hvs, _⟩ := bind_ok_iff.mp hv'
  obtain ⟨k, hk, hwf, hterms⟩ := regular_core hreg t1 vs hs ho' hvs
  obtain ⟨b, hb, rfl⟩ := hterms x n hn
  obtain ⟨c, hc', rfl⟩ := hterms x m hm
  rcases validateGroupOrders_cases σ t1 k hk hwf with ⟨_, h⟩ | ⟨h, _⟩
  · exact hnm (h x b x c hb hc' rfl)
  · rw [hv] at h; cases h

/-- The error of the check. -/
theorem orders_error {t : Stmt E} (hcomp : ∀ l, t ≠ .leaf l) (hreg : Regular t) {x : Sec} {n m : Nat}
    (hn : UsesOrder x n t) (hm : UsesOrder x m t) (hnm : n ≠ m) {σ : Store} {t1 : Stmt E} (hs : SameStmt t t1)
    (ho' : Every OwnLeaf t1) {vs : List Sec} (hvs : Tree.secretVars t1 = .ok vs) :
    Tree.validateComposition σ t1 = .error .groupMismatch := by
  obtain ⟨k, hk, hwf, hterms⟩ := regular_core hreg t1 vs hs ho' hvs
  obtain ⟨b, hb, rfl⟩ := hterms x n hn
  obtain ⟨c, hc', rfl⟩ := hterms x m hm
  have hv : Tree.validateGroupOrders σ t1 = .error .groupMismatch := by
    rcases validateGroupOrders_cases σ t1 k hk hwf with ⟨_, h⟩ | ⟨h, _⟩
    · exact (hnm (h x b x c hb hc' rfl)).elim
    · exact h
  cases hs with
  | rep s s' => exact (hcomp _ rfl).elim
  | ext s s' => exact (hcomp _ rfl).elim
  | all _ b _ ts => simp only [Tree.validateComposition, hv]; rfl
  | any _ b _ ts => exact hv

/-- The error of the check is the one of the commitment. -/
theorem commit_error {env : Env E} {q : PTree E (Leaf E) (LeafProver E)} {w : World} {e : Err} {id : PId E}
    (hid : Tree.proofId w.store (PTree.stmtOf q) = .ok id)
    (hv : Tree.validateComposition w.store (PTree.stmtOf q) = .error e) :
    PTree.commit env q w = .error e ∧ ∀ r, PTree.commitGiven env q r w = .error e := by
  have hi : ∀ r, PTree.internalCommit q r w = .error e := by
    intro r
    cases q with
    | leaf q => cases hv
    | or b1 i stmts sub sims =>
      simp only [PTree.stmtOf] at hv
      simp only [PTree.internalCommit]
      rw [pm_getStore_bind, hv]
      rfl
    | and b1 ps =>
      simp only [PTree.stmtOf] at hv
      simp only [PTree.internalCommit]
      rw [pm_getStore_bind, hv]
      rfl
  constructor
  · unfold PTree.commit
    rw [pm_getStore_bind, hid]
    show (PTree.internalCommit q none w >>= _) = _
    rw [hi]; rfl
  · intro r
    unfold PTree.commitGiven
    rw [pm_getStore_bind, hid]
    show (PTree.internalCommit q (some r) w >>= _) = _
    rw [hi]; rfl

/-- The parts of a conjunction of a statement with itself. -/
theorem twice_parts {t0 t u : Stmt E} {rest : List (Stmt E)} (hand : opAnd t0 t0 = .ok t) (h : OrPart t0 u rest) {x : Sec}
    (hx : SpeaksOf x u) (ho : Every OwnLeaf t0) :
    ∃ (ts : List (Stmt E)) (v : Stmt E) (rest' : List (Stmt E)), t = .and false ts ∧ OrPart (.and false ts) u rest' ∧
      v ∈ rest' ∧ SpeaksOf x v ∧ Every OwnLeaf (.and false ts : Stmt E) := by
  cases h with
  | here b us =>
    refine ⟨[.or b us, .or b us], _, _, (Except.ok.inj hand).symm, .down false [] _ [.or b us] _ _ (.here b us),
      by simp, hx, ?_⟩
    intro l hl
    cases hl with
    | all _ _ t ht h =>
      have e : t = .or b us := by simpa using ht
      subst e; exact ho l h
  | down b ls s rs _ rest h =>
    have : t = .and false (ls ++ s :: (rs ++ (ls ++ s :: rs))) := by
      have k : mkAnd ((ls ++ s :: rs) ++ (ls ++ s :: rs)) = .ok t := hand
      unfold mkAnd at k
      rw [if_neg (by simp only [List.length_append, List.length_cons]; omega)] at k
      rw [← Except.ok.inj k]; simp
    obtain ⟨r, hl, hr⟩ := hx
    refine ⟨_, s, _, this, .down false ls s _ u rest h, by simp, ⟨r, orPart_hasLeaf h hl, hr⟩, ?_⟩
    intro l hl
    cases hl with
    | all _ _ t ht h =>
      refine ho l (.all _ _ t ?_ h)
      simp only [List.mem_append, List.mem_cons] at ht ⊢
      tauto

end Zksk.Apart
