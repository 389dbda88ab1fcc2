import Verif.Lemmas.Frame
import Verif.Lemmas.NotEqualRun
import Verif.SpecTutorial
import Verif.SpecTruth

/-! Lemmas on extended statements that cannot be simulated. -/

set_option linter.unusedSectionVars false

namespace Zksk

open Spec

variable {E : Type} [AddCommGroup E] [DecidableEq E]

/-- Simulating never returns. -/
def Unsimulated (sp : ExtSpec E) : Prop := ∀ w r, sp.simPrecommit w ≠ .ok r

/-- The statement has a leaf that cannot be simulated. -/
def HasUnsim (t : Stmt E) : Prop := ∃ e : Ext E, HasLeaf (.ext e) t ∧ Unsimulated e.spec

theorem hasUnsim_blank {t t' : Stmt E} (h : Tree.blank t' = Tree.blank t) : HasUnsim t → HasUnsim t' := by
  rintro ⟨e, h1, h2⟩
  obtain ⟨l, h3, h4⟩ := hasLeaf_blank h1 h.symm
  cases l with
  | dlrep s => simp [Blank.blank] at h4
  | ext s =>
    refine ⟨s, h3, ?_⟩
    have : s.spec = e.spec := by
      simp only [Blank.blank, Leaf.ext.injEq] at h4
      exact (congrArg Ext.spec h4).symm
    rw [this]; exact h2

theorem prepareSim_refused : ∀ t : Stmt E, HasUnsim t → ∀ w r, Tree.prepareSim t w ≠ .ok r := by
  have loop : ∀ ts : List (Stmt E), (∀ t ∈ ts, HasUnsim t → ∀ w r, Tree.prepareSim t w ≠ .ok r) →
      (∃ t ∈ ts, HasUnsim t) → ∀ w r, Tree.prepareSimL ts w ≠ .ok r := by
    intro ts
    induction ts with
    | nil => rintro _ ⟨_, h, _⟩; simp at h
    | cons t ts ih =>
      rintro h ⟨u, hu, hs⟩ w r hr
      unfold Tree.prepareSimL at hr
      obtain ⟨a, w1, h1, hr⟩ := pm_bind.mp hr
      obtain ⟨a', w2, h2, _⟩ := pm_bind.mp hr
      rcases List.mem_cons.mp hu with rfl | hu
      · exact h _ (by simp) hs _ _ h1
      · exact ih (fun t ht => h t (by simp [ht])) ⟨u, hu, hs⟩ _ _ h2
  intro t
  induction t using Tree.ind with
  | leaf l =>
    rintro ⟨e, hl, he⟩ w r hr
    cases hl
    unfold Tree.prepareSim at hr
    obtain ⟨a, w1, h1, _⟩ := pm_bind.mp hr
    simp only [StmtOps.prepareSim] at h1
    obtain ⟨b, w2, h2, _⟩ := pm_bind.mp h1
    unfold Ext.prepareSim at h2
    obtain ⟨v, w3, h3, _⟩ := pm_bind.mp h2
    exact he _ _ h3
  | and b subs ih =>
    rintro ⟨e, hl, he⟩ w r hr
    unfold Tree.prepareSim at hr
    obtain ⟨a, w1, h1, _⟩ := pm_bind.mp hr
    cases hl with
    | all _ _ u hu hl => exact loop subs ih ⟨u, hu, e, hl, he⟩ _ _ h1
  | or b subs ih =>
    rintro ⟨e, hl, he⟩ w r hr
    unfold Tree.prepareSim at hr
    obtain ⟨a, w1, h1, _⟩ := pm_bind.mp hr
    cases hl with
    | any _ _ u hu hl => exact loop subs ih ⟨u, hu, e, hl, he⟩ _ _ h1

theorem setup_refused (idx : Nat) : ∀ (ts : List (Stmt E)) (i j : Nat) (u : Stmt E), ts[j]? = some u → i + j ≠ idx →
    HasUnsim u → ∀ w r, (PTree.setupSimulations idx ts i : PM (List (Stmt E) × List (Sim E))) w ≠ .ok r
  | [], i, j, u, hj, _, _, w, r => by simp at hj
  | t :: ts, i, j, u, hj, hne, hD, w, r => by
    intro hr
    have ih := setup_refused idx ts (i + 1)
    unfold PTree.setupSimulations at hr
    split at hr
    · rename_i hi
      obtain ⟨a, w1, h1, _⟩ := pm_bind.mp hr
      cases j with
      | zero => exact hne hi
      | succ j => exact ih j u hj (by omega) hD w _ h1
    · obtain ⟨t', w1, h1, hr⟩ := pm_bind.mp hr
      cases j with
      | zero =>
        simp only [List.getElem?_cons_zero, Option.some.injEq] at hj
        subst hj
        exact prepareSim_refused t hD w _ h1
      | succ j =>
        obtain ⟨s, w2, h2, hr⟩ := pm_bind.mp hr
        obtain ⟨a, w3, h3, _⟩ := pm_bind.mp hr
        exact ih j u hj (by omega) hD w2 _ h3

/-- A prover for a disjunction works on the one clause that cannot be simulated. -/
theorem getProver_or_unsim {b : Bool} {subs : List (Stmt E)} {d : Dict Int} {w w' : World} {p : StmtProver E}
    {t' : Stmt E} (h : (PTree.getProver (.or b subs) d : PM (Option (StmtProver E) × Stmt E)) w = .ok ((some p, t'), w')) :
    b = false ∧ ∃ (i : Nat) (t : Stmt E) (stmts : List (Stmt E)) (sub : StmtProver E) (sims : List (Sim E)),
      p = .or false i stmts sub sims ∧ subs[i]? = some t ∧ t.simulated = false ∧
      (∃ (w1 w2 : World) (t1 : Stmt E), PTree.getProver t d w1 = .ok ((some sub, t1), w2)) ∧
      ∀ j u, subs[j]? = some u → HasUnsim u → j = i := by
  rcases getProver_or_cases (J := fun _ => True) (fun _ _ _ _ _ _ _ => trivial) trivial h with
    ⟨_, h0⟩ | ⟨_, h0, _⟩ | ⟨h1, i, t, stmts, sub, sims, w1, w2, t1, h2, h3, _, h4, h5⟩
  · cases h0
  · cases h0
  · cases h5
    refine ⟨h1, i, t, stmts, sub, sims, rfl, h2, h3, ⟨w1, w2, t1, h4⟩, fun j u hj hu => ?_⟩
    by_contra hne
    subst h1
    simp only [PTree.getProver] at h
    rw [pm_getStore_bind, pm_setStore_bind] at h
    simp only [Bool.false_eq_true, if_false] at h
    obtain ⟨⟨r, subs'⟩, w5, k1, k2⟩ := pm_bind.mp h
    have hk := (orLoop_keeps (fun t _ => getProver_keeps keepLeaf d t) _ _ _ _ _ _ _ rfl k1).1
    cases r with
    | none =>
      simp only at k2
      rw [pm_pure_iff, Prod.mk.injEq, Prod.mk.injEq] at k2
      cases k2.1.1
    | some ip =>
      obtain ⟨i', sub'⟩ := ip
      simp only at k2
      obtain ⟨⟨stmts', sims'⟩, w6, k3, k2⟩ := pm_bind.mp k2
      rw [pm_pure_iff, Prod.mk.injEq, Prod.mk.injEq] at k2
      have := k2.1.1
      simp only [Option.some.injEq, PTree.or.injEq] at this
      obtain ⟨_, rfl, rfl, rfl, rfl⟩ := this
      obtain ⟨u', hu', e⟩ := blankL_nth hk hj
      exact setup_refused _ subs' 0 j u' hu' (by omega) (hasUnsim_blank e hu) _ _ k3

theorem getProverL_each : ∀ (ts : List (Stmt E)) (d : Dict Int) (w w' : World) (ps : List (Option (StmtProver E)))
    (ts' : List (Stmt E)), PTree.getProverL ts d w = .ok ((ps, ts'), w') → ∀ qs, PTree.allSome ps = some qs → ∀ t ∈ ts,
    ∃ w1 w2 p t', (PTree.getProver t d : PM (Option (StmtProver E) × Stmt E)) w1 = .ok ((some p, t'), w2)
  | [], d, w, w', ps, ts', h, qs, hq, t, ht => by simp at ht
  | u :: ts, d, w, w', ps, ts', h, qs, hq, t, ht => by
    unfold PTree.getProverL at h
    obtain ⟨⟨p?, u'⟩, w1, h1, h⟩ := pm_bind.mp h
    obtain ⟨⟨ps1, ts1⟩, w2, h2, h⟩ := pm_bind.mp h
    simp only at h
    rw [pm_pure_iff, Prod.mk.injEq, Prod.mk.injEq] at h
    obtain ⟨⟨rfl, rfl⟩, _⟩ := h
    cases p? with
    | none => simp [PTree.allSome] at hq
    | some p =>
      cases hps : PTree.allSome ps1 with
      | none => simp [PTree.allSome, hps] at hq
      | some qs1 =>
        rcases List.mem_cons.mp ht with rfl | ht
        · exact ⟨_, _, _, _, h1⟩
        · exact getProverL_each ts d _ _ _ _ h2 qs1 hps t ht

/-- Two clauses of a disjunction cannot be simulated. -/
def Stuck (u : Stmt E) : Prop := ∃ (b : Bool) (subs : List (Stmt E)) (i j : Nat) (t1 t2 : Stmt E), u = .or b subs ∧ i ≠ j ∧
  subs[i]? = some t1 ∧ subs[j]? = some t2 ∧ HasUnsim t1 ∧ HasUnsim t2

theorem stuck_unsim {u : Stmt E} (h : Stuck u) : HasUnsim u := by
  obtain ⟨b, subs, i, j, t1, t2, rfl, _, h1, _, ⟨e, h2, h3⟩, _⟩ := h
  exact ⟨e, .any _ _ _ (List.mem_of_getElem? h1) h2, h3⟩

theorem part_unsim {u t : Stmt E} (h : PartOf u t) (hu : HasUnsim u) : HasUnsim t := by
  induction h with
  | here => exact hu
  | all b subs t ht _ ih => obtain ⟨e, h1, h2⟩ := ih; exact ⟨e, .all _ _ t ht h1, h2⟩
  | any b subs t ht _ ih => obtain ⟨e, h1, h2⟩ := ih; exact ⟨e, .any _ _ t ht h1, h2⟩

/-- There is no prover for a statement with such a part. -/
theorem getProver_stuck {u t : Stmt E} (h : PartOf u t) (hu : Stuck u) : ∀ (d : Dict Int) (w w' : World)
    (p : StmtProver E) (t' : Stmt E),
    (PTree.getProver t d : PM (Option (StmtProver E) × Stmt E)) w ≠ .ok ((some p, t'), w') := by
  induction h with
  | here =>
    intro d w w' p t' h
    obtain ⟨b, subs, i, j, t1, t2, rfl, hne, h1, h2, h3, h4⟩ := hu
    obtain ⟨_, k, _, _, _, _, _, _, _, _, hk⟩ := getProver_or_unsim h
    exact hne ((hk i t1 h1 h3).trans (hk j t2 h2 h4).symm)
  | all b subs t ht _ ih =>
    intro d w w' p t' h
    simp only [PTree.getProver] at h
    rw [pm_getStore_bind, pm_setStore_bind] at h
    cases b with
    | true =>
      simp only [if_true] at h
      rw [pm_pure_iff, Prod.mk.injEq, Prod.mk.injEq] at h
      cases h.1.1
    | false =>
      simp only [Bool.false_eq_true, if_false] at h
      obtain ⟨⟨ps, subs'⟩, w5, k1, k2⟩ := pm_bind.mp h
      simp only at k2
      cases hps : PTree.allSome ps with
      | none => rw [hps] at k2; exact (raise_ne.mp k2).elim
      | some qs =>
        obtain ⟨w1, w2, p1, t1, h1⟩ := getProverL_each _ _ _ _ _ _ k1 qs hps t ht
        exact ih _ _ _ _ _ h1
  | any b subs t ht hp ih =>
    intro d w w' p t' h
    obtain ⟨_, k, tk, _, _, _, _, h1, _, ⟨w1, w2, t1, h2⟩, hk⟩ := getProver_or_unsim h
    obtain ⟨j, hj⟩ := List.getElem?_of_mem ht
    obtain rfl := hk j t hj (part_unsim hp (stuck_unsim hu))
    rw [hj] at h1; cases h1
    exact ih _ _ _ _ _ h2

theorem noOr_orIn {t u : Stmt E} {rest : List (Stmt E)} (h : OrIn t u rest) : ¬ NoOr t := by
  induction h with
  | here b subs => intro h; cases h
  | down b ls t rs u rest _ ih =>
    intro h
    cases h with
    | all _ _ h => exact ih (h t (by simp))

theorem noOr_tidy {F : Profile E} {name : Sec → String} {t : Stmt E} (h : NoOr t) : Tidy F name t := by
  induction h with
  | leaf l => exact .leaf l
  | all b subs h ih => exact .all _ _ ih fun u rest hu => (noOr_orIn hu (.all b subs h)).elim

theorem noOr_placed {F : Profile E} {t : Stmt E} (h : NoOr t) : Placed F t := by
  induction h with
  | leaf l => exact .leaf l
  | all b subs h ih => exact .all _ _ ih

end Zksk
