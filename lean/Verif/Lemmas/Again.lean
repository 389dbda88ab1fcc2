import Verif.Lemmas.Select

/-! What proving does to the statement object. -/

set_option linter.unusedSectionVars false

namespace Zksk

open Spec

variable {E : Type} [AddCommGroup E] [DecidableEq E]

/-! ### Committing does not change the statement -/

theorem precommitL_stmt {ps : List (CoreProver E)}
    (ih : ∀ p ∈ ps, ∀ v p' (w w' : World), PTree.precommit p w = .ok ((v, p'), w') → p' = p ∧ w' = w) :
    ∀ vs ps' (w w' : World), PTree.precommitL ps w = .ok ((vs, ps'), w') → ps' = ps ∧ w' = w := by
  induction ps with
  | nil =>
    intro vs ps' w w' h
    simp only [PTree.precommitL] at h
    rw [pm_pure_iff, Prod.mk.injEq, Prod.mk.injEq] at h
    exact ⟨h.1.2.symm, h.2.symm⟩
  | cons p ps ihp =>
    intro vs ps' w w' h
    simp only [PTree.precommitL] at h
    obtain ⟨⟨v, p1⟩, w1, h1, h⟩ := pm_bind.mp h
    obtain ⟨⟨vs1, ps1⟩, w2, h2, h⟩ := pm_bind.mp h
    rw [pm_pure_iff, Prod.mk.injEq, Prod.mk.injEq] at h
    obtain ⟨e1, f1⟩ := ih p (by simp) v p1 w w1 h1
    obtain ⟨e2, f2⟩ := ihp (fun q hq => ih q (by simp [hq])) vs1 ps1 w1 w2 h2
    simp only at h
    rw [← h.1.2, ← h.2, e1, e2, f2, f1]; exact ⟨rfl, rfl⟩

theorem precommit_stmt : ∀ (p : CoreProver E) (v : Val E) (p' : CoreProver E) (w w' : World),
    PTree.precommit p w = .ok ((v, p'), w') → p' = p ∧ w' = w := by
  intro p
  induction p using PTree.ind with
  | leaf q =>
    intro v p' w w' h
    have h' : (pure (Val.none, (PTree.leaf q : CoreProver E)) : PM _) w = .ok ((v, p'), w') := h
    rw [pm_pure_iff, Prod.mk.injEq, Prod.mk.injEq] at h'
    exact ⟨h'.1.2.symm, h'.2.symm⟩
  | and s subs ih =>
    intro v p' w w' h
    simp only [PTree.precommit] at h
    obtain ⟨⟨vs, ps⟩, w1, h1, h⟩ := pm_bind.mp h
    rw [pm_pure_iff, Prod.mk.injEq, Prod.mk.injEq] at h
    obtain ⟨e1, f1⟩ := precommitL_stmt ih vs ps w w1 h1
    simp only at h
    rw [← h.1.2, ← h.2, e1, f1]; exact ⟨rfl, rfl⟩
  | or s i stmts sub sims ih =>
    intro v p' w w' h
    simp only [PTree.precommit] at h
    obtain ⟨⟨v1, p1⟩, w1, h1, h⟩ := pm_bind.mp h
    simp only at h
    obtain ⟨vs, _, h⟩ := pm_liftE_bind_iff.mp h
    rw [pm_pure_iff, Prod.mk.injEq, Prod.mk.injEq] at h
    obtain ⟨e1, f1⟩ := ih v1 p1 w w1 h1
    rw [← h.1.2, ← h.2, e1, f1]; exact ⟨rfl, rfl⟩

theorem commitL_stmt {ps : List (CoreProver E)}
    (ih : ∀ p ∈ ps, ∀ d v p' (w w' : World), PTree.internalCommit p d w = .ok ((v, p'), w') →
      PTree.stmtOf p' = PTree.stmtOf p) :
    ∀ d vs ps' (w w' : World), PTree.internalCommitL ps d w = .ok ((vs, ps'), w') →
      PTree.stmtOfL ps' = PTree.stmtOfL ps := by
  induction ps with
  | nil =>
    intro d vs ps' w w' h
    simp only [PTree.internalCommitL] at h
    rw [pm_pure_iff, Prod.mk.injEq, Prod.mk.injEq] at h
    rw [h.1.2]
  | cons p ps ihp =>
    intro d vs ps' w w' h
    simp only [PTree.internalCommitL] at h
    obtain ⟨⟨v, p1⟩, w1, h1, h⟩ := pm_bind.mp h
    obtain ⟨⟨vs1, ps1⟩, w2, h2, h⟩ := pm_bind.mp h
    rw [pm_pure_iff, Prod.mk.injEq, Prod.mk.injEq] at h
    have e1 := ih p (by simp) _ v p1 w w1 h1
    have e2 := ihp (fun q hq => ih q (by simp [hq])) d vs1 ps1 w1 w2 h2
    simp only at h
    rw [← h.1.2]
    simp only [PTree.stmtOfL, e1, e2]

theorem commit_stmt : ∀ (p : CoreProver E) (d : Option (Dict Int)) (v : Val E) (p' : CoreProver E)
    (w w' : World), PTree.internalCommit p d w = .ok ((v, p'), w') → PTree.stmtOf p' = PTree.stmtOf p := by
  intro p
  induction p using PTree.ind with
  | leaf q =>
    intro d v p' w w' h
    simp only [PTree.internalCommit] at h
    obtain ⟨⟨v1, q1⟩, w1, h1, h⟩ := pm_bind.mp h
    rw [pm_pure_iff, Prod.mk.injEq, Prod.mk.injEq] at h
    simp only at h
    rw [← h.1.2]
    have h1' : DLRepProver.internalCommit q d w = .ok ((v1, q1), w1) := h1
    unfold DLRepProver.internalCommit at h1'
    obtain ⟨d', w2, h2, h3⟩ := pm_bind.mp h1'
    rw [pm_getStore_bind, pm_liftE_bind_iff] at h3
    obtain ⟨ks, _, h3⟩ := h3
    obtain ⟨cm, _, h3⟩ := pm_liftE_bind_iff.mp h3
    rw [pm_pure_iff, Prod.mk.injEq, Prod.mk.injEq] at h3
    simp only [PTree.stmtOf]
    rw [← h3.1.2]
    rfl
  | and s subs ih =>
    intro d v p' w w' h
    simp only [PTree.internalCommit] at h
    rw [pm_getStore_bind, pm_liftE_bind_iff] at h
    obtain ⟨_, _, h⟩ := h
    obtain ⟨d', w1, _, h⟩ := pm_bind.mp h
    obtain ⟨⟨vs, ps⟩, w2, h2, h⟩ := pm_bind.mp h
    rw [pm_pure_iff, Prod.mk.injEq, Prod.mk.injEq] at h
    simp only at h
    rw [← h.1.2]
    simp only [PTree.stmtOf]
    rw [commitL_stmt ih d' vs ps w1 w2 h2]
  | or s i stmts sub sims ih =>
    intro d v p' w w' h
    simp only [PTree.internalCommit] at h
    rw [pm_getStore_bind, pm_liftE_bind_iff] at h
    obtain ⟨_, _, h⟩ := h
    obtain ⟨⟨v1, p1⟩, w1, h1, h⟩ := pm_bind.mp h
    simp only at h
    obtain ⟨vs, _, h⟩ := pm_liftE_bind_iff.mp h
    rw [pm_pure_iff, Prod.mk.injEq, Prod.mk.injEq] at h
    rw [← h.1.2]
    simp only [PTree.stmtOf]
    rw [ih none v1 p1 w w1 h1]

theorem nizk_stmt {env : Env E} {p p' : CoreProver E} {msg : String} {nizk : NIZK E} {w w' : World}
    (h : PTree.getNizkProof env p msg w = .ok ((nizk, p'), w')) : PTree.stmtOf p' = PTree.stmtOf p := by
  unfold PTree.getNizkProof at h
  obtain ⟨⟨v, p1⟩, w1, h1, h⟩ := pm_bind.mp h
  obtain ⟨⟨com, p2⟩, w2, h2, h⟩ := pm_bind.mp h
  simp only at h
  rw [pm_getStore_bind, pm_liftE_bind_iff] at h
  obtain ⟨id, _, h⟩ := h
  obtain ⟨c, _, h⟩ := pm_liftE_bind_iff.mp h
  obtain ⟨r, w3, _, h⟩ := pm_bind.mp h
  rw [pm_pure_iff, Prod.mk.injEq, Prod.mk.injEq] at h
  rw [← h.1.2]
  have e1 := (precommit_stmt p v p1 w w1 h1).1
  subst e1
  exact commit_stmt _ _ _ _ _ _ h2

theorem prove_split {env : Env E} {t t' : Core E} {d : Dict Int} {msg : String} {nizk : NIZK E} {w w' : World}
    (h : prove (DLRepProver E) env t d msg w = .ok ((nizk, t'), w')) :
    ∃ (p p' : CoreProver E) (t1 : Core E) (w1 : World),
      PTree.getProver t d w = .ok ((some p, t1), w1) ∧
      PTree.getNizkProof env p msg w1 = .ok ((nizk, p'), w') ∧ t' = PTree.stmtOf p := by
  unfold prove at h
  obtain ⟨⟨p?, t1⟩, w1, h1, h⟩ := pm_bind.mp h
  cases p? with
  | none => exact (raise_ne.mp h).elim
  | some p =>
    simp only at h
    obtain ⟨⟨n, p'⟩, w2, h2, h⟩ := pm_bind.mp h
    rw [pm_pure_iff, Prod.mk.injEq, Prod.mk.injEq] at h
    obtain ⟨⟨rfl, rfl⟩, rfl⟩ := h
    exact ⟨p, p', t1, w1, h1, h2, nizk_stmt h2⟩

/-! ### Conjunctions -/

/-- The statement after proving: representations keep what they say and get the same values. -/
inductive After (σ : Store) (d : Dict Int) : Core E → Core E → Prop
  | rep (s s' : DLRep E) (hn : s'.norm = s.norm) (h : ∀ x, given σ d s' x = given σ d s x) :
      After σ d (.leaf s) (.leaf s')
  | all (b : Bool) (subs subs' : List (Core E)) (hl : subs'.length = subs.length)
      (h : ∀ (i : Nat) (t t' : Core E), subs[i]? = some t → subs'[i]? = some t' → After σ d t t') :
      After σ d (.and b subs) (.and b subs')

theorem given_again {σ : Store} {d : Dict Int} {s s' : DLRep E}
    (h : s'.secretValues = Dict.update σ s.secretValues d) (x : Sec) :
    given σ d s' x = given σ d s x := by
  unfold given
  cases hd : Dict.get? σ d x with
  | some v => rfl
  | none => rw [h, Dict.get?_update_of_none _ hd]

theorem getProver_after {σ : Store} {d : Dict Int} (hu : updateSecretValues σ d = σ) :
    ∀ (t : Core E), OrFree t → ∀ (p? : Option (CoreProver E)) (t' : Core E) (w w' : World), w.store = σ →
    PTree.getProver t d w = .ok ((p?, t'), w') →
      w'.store = σ ∧ ∀ p, p? = some p → After σ d t (PTree.stmtOf p) := by
  intro t
  induction t using Tree.ind with
  | leaf s =>
    intro _ p? t' w w' hw h
    simp only [PTree.getProver] at h
    obtain ⟨⟨q?, s'⟩, w1, h1, h⟩ := pm_bind.mp h
    rw [pm_pure_iff, Prod.mk.injEq, Prod.mk.injEq] at h
    obtain ⟨e1, e2, e3⟩ := getProver_dlrep h1
    refine ⟨by rw [← h.2, e1]; exact hw, fun p hp => ?_⟩
    have hq := h.1.1
    rw [hp] at hq
    cases q? with
    | none => simp at hq
    | some q =>
      simp only [Option.map_some, Option.some.injEq] at hq
      subst hq
      obtain ⟨f1, f2, _⟩ := e3 q rfl
      refine .rep _ _ f1 (given_again ?_)
      have h1' : DLRepProver.getProver s d w = .ok ((some q, s'), w1) := h1
      unfold DLRepProver.getProver at h1'
      rw [pm_getStore_bind, hw] at h1'
      split at h1'
      · rw [pm_pure_iff, Prod.mk.injEq, Prod.mk.injEq] at h1'; simp at h1'
      · rw [pm_pure_iff, Prod.mk.injEq, Prod.mk.injEq, Option.some.injEq] at h1'
        rw [← h1'.1.1]
        rfl
  | and b subs ih =>
    intro ho p? t' w w' hw h
    cases ho with
    | all _ _ ho =>
    simp only [PTree.getProver] at h
    rw [pm_getStore_bind, pm_setStore_bind] at h
    have hw0 : ({ w with store := updateSecretValues w.store d } : World).store = σ := by
      simp only [hw, hu]
    generalize ({ w with store := updateSecretValues w.store d } : World) = w0 at h hw0
    cases b with
    | true =>
      simp only [if_true] at h
      rw [pm_pure_iff, Prod.mk.injEq, Prod.mk.injEq] at h
      refine ⟨h.2 ▸ hw0, fun p hp => ?_⟩
      rw [hp] at h; simp at h
    | false =>
      simp only [Bool.false_eq_true, if_false] at h
      obtain ⟨⟨ps, subs'⟩, w1, h1, h⟩ := pm_bind.mp h
      have key : ∀ (ts : List (Core E)), (∀ t ∈ ts, t ∈ subs) → ∀ (ps : List (Option (CoreProver E)))
          (ts' : List (Core E)) (w w' : World), w.store = σ →
          PTree.getProverL ts d w = .ok ((ps, ts'), w') →
          w'.store = σ ∧ ps.length = ts.length ∧ ∀ (i : Nat) t p, ts[i]? = some t →
            ps[i]? = some (some p) → After σ d t (PTree.stmtOf p) := by
        intro ts
        induction ts with
        | nil =>
          intro _ ps ts' w w' hw h
          simp only [PTree.getProverL] at h
          rw [pm_pure_iff, Prod.mk.injEq, Prod.mk.injEq] at h
          refine ⟨h.2 ▸ hw, by rw [← h.1.1]; rfl, by simp⟩
        | cons t ts iht =>
          intro hm ps ts' w w' hw h
          simp only [PTree.getProverL] at h
          obtain ⟨⟨p1, t1⟩, w1, h1, h⟩ := pm_bind.mp h
          obtain ⟨⟨ps1, ts1⟩, w2, h2, h⟩ := pm_bind.mp h
          rw [pm_pure_iff, Prod.mk.injEq, Prod.mk.injEq] at h
          obtain ⟨e1, e2⟩ := ih t (hm t (by simp)) (ho t (hm t (by simp))) p1 t1 w w1 hw h1
          obtain ⟨f1, f2, f3⟩ := iht (fun u hu => hm u (by simp [hu])) ps1 ts1 w1 w2 e1 h2
          simp only at h
          refine ⟨h.2 ▸ f1, by rw [← h.1.1]; simp [f2], ?_⟩
          intro i u p hi hp
          rw [← h.1.1] at hp
          cases i with
          | zero =>
            simp only [List.getElem?_cons_zero, Option.some.injEq] at hi hp
            subst hi
            exact e2 p hp
          | succ i => exact f3 i u p hi hp
      obtain ⟨e1, e2, e3⟩ := key subs (fun _ h => h) ps subs' w0 w1 hw0 h1
      cases ha : PTree.allSome ps with
      | none => simp only [ha] at h; exact (raise_ne.mp h).elim
      | some ps' =>
        simp only [ha] at h
        rw [pm_pure_iff, Prod.mk.injEq, Prod.mk.injEq] at h
        refine ⟨h.2 ▸ e1, fun p hp => ?_⟩
        rw [hp] at h
        simp only [Option.some.injEq] at h
        rw [← h.1.1]
        have hps := allSome_eq ha
        have hst : ∀ (l : List (CoreProver E)), PTree.stmtOfL l = l.map PTree.stmtOf := by
          intro l
          induction l with
          | nil => rfl
          | cons a l ih => simp only [PTree.stmtOfL, List.map_cons, ih]
        refine .all _ _ _ ?_ fun i t t' ht ht' => ?_
        · rw [hst, List.length_map, ← e2, hps, List.length_map]
        · rw [hst, List.getElem?_map, Option.map_eq_some_iff] at ht'
          obtain ⟨q, hq, rfl⟩ := ht'
          exact e3 i t q ht (by rw [hps, List.getElem?_map, hq]; rfl)
  | or b subs ih => intro ho; cases ho

theorem orFree_after {σ : Store} {d : Dict Int} {t t' : Core E} (h : After σ d t t') :
    OrFree t → OrFree t' := by
  induction h with
  | rep s s' _ _ => intro _; exact .rep s'
  | all b subs subs' hl h ih =>
    intro ho
    cases ho with
    | all _ _ ho =>
      refine .all _ _ fun u hu => ?_
      obtain ⟨i, hi⟩ := List.mem_iff_getElem?.mp hu
      obtain ⟨t, ht⟩ : ∃ t, subs[i]? = some t := by
        have := (List.getElem?_eq_some_iff.mp hi).1
        exact ⟨_, List.getElem?_eq_getElem (by omega)⟩
      exact ih i t u ht hi (ho t (List.mem_of_getElem? ht))

theorem satisfied_after {σ : Store} {d : Dict Int} {X : Key → Int} {t t' : Core E} (h : After σ d t t') :
    Satisfied σ d X t → Satisfied σ d X t' := by
  induction h with
  | rep s s' hn hg =>
    intro hs
    have h1 : s'.bases = s.bases := by have := congrArg DLRep.bases hn; exact this
    have h2 : s'.secretVars = s.secretVars := by have := congrArg DLRep.secretVars hn; exact this
    have h3 : s'.lhs = s.lhs := by have := congrArg DLRep.lhs hn; exact this
    cases hs with
    | rep _ hv hh =>
    refine .rep _ (fun x hx => ?_) ?_
    · rw [hg]; exact hv x (h2 ▸ hx)
    · cases hh with
      | rep _ _ i1 i2 =>
        refine .rep _ _ ?_ ?_
        · rw [h1, h3]; exact i1
        · rw [h1, h2, h3]; exact i2
  | all b subs subs' hl h ih =>
    intro hs
    cases hs with
    | all _ hs =>
      refine .all _ fun u hu => ?_
      obtain ⟨i, hi⟩ := List.mem_iff_getElem?.mp hu
      obtain ⟨t, ht⟩ : ∃ t, subs[i]? = some t := by
        have := (List.getElem?_eq_some_iff.mp hi).1
        exact ⟨_, List.getElem?_eq_getElem (by omega)⟩
      exact ih i t u ht hi (hs t (List.mem_of_getElem? ht))

/-! ### Disjunctions -/

theorem setup_core (idx : Nat) : ∀ (ts ts' : List (Core E)) (index : Nat) (sims : List (Sim E))
    (w w' : World), (PTree.setupSimulations idx ts index : PM (List (Core E) × List (Sim E))) w =
      .ok ((ts', sims), w') → ts' = ts
  | [], ts', index, sims, w, w', h => by
    simp only [PTree.setupSimulations] at h
    rw [pm_pure_iff, Prod.mk.injEq, Prod.mk.injEq] at h
    exact h.1.1.symm
  | t :: ts, ts', index, sims, w, w', h => by
    simp only [PTree.setupSimulations] at h
    split at h
    · obtain ⟨⟨ts1, s1⟩, w1, h1, h⟩ := pm_bind.mp h
      rw [pm_pure_iff, Prod.mk.injEq, Prod.mk.injEq] at h
      have e := setup_core idx ts ts1 (index + 1) s1 w w1 h1
      simp only at h
      rw [← h.1.1, e]
    · rw [pm_bind_eq (prepareSim_core t w)] at h
      obtain ⟨s0, w1, h1, h⟩ := pm_bind.mp h
      obtain ⟨⟨ts1, s1⟩, w2, h2, h⟩ := pm_bind.mp h
      rw [pm_pure_iff, Prod.mk.injEq, Prod.mk.injEq] at h
      have e := setup_core idx ts ts1 (index + 1) s1 w1 w2 h2
      simp only at h
      rw [← h.1.1, e]

/-- The clauses are representations. -/
def Leaves (ts : List (Core E)) : Prop := ∀ t ∈ ts, ∃ s, t = .leaf s

/-- Marks of clauses never go away. -/
def Marks (ts ts' : List (Core E)) : Prop :=
  ts'.length = ts.length ∧ ∀ (i : Nat) t t', ts[i]? = some t → ts'[i]? = some t' →
    t.simulated = true → t'.simulated = true

theorem Marks.refl (ts : List (Core E)) : Marks ts ts := ⟨rfl, fun i t t' h h' hs => by
  rw [h] at h'; cases h'; exact hs⟩

theorem Marks.set {ts us : List (Core E)} (h : Marks ts us) (i : Nat) {u : Core E}
    (hu : u.simulated = true) : Marks ts (us.set i u) := by
  refine ⟨by simpa using h.1, fun j t t' ht ht' hs => ?_⟩
  rw [List.getElem?_set] at ht'
  split at ht'
  · split at ht'
    · cases ht'; exact hu
    · cases ht'
  · exact h.2 j t t' ht ht' hs

theorem getProver_leaf_marks {s : DLRep E} {d : Dict Int} {w w' : World} {p? : Option (CoreProver E)}
    {t' : Core E} (h : PTree.getProver (.leaf s) d w = .ok ((p?, t'), w')) :
    (∃ s', t' = .leaf s') ∧ t'.simulated = true ∧ ∀ p, p? = some p → PTree.stmtOf p = t' := by
  simp only [PTree.getProver] at h
  obtain ⟨⟨q?, s'⟩, w1, h1, h⟩ := pm_bind.mp h
  rw [pm_pure_iff, Prod.mk.injEq, Prod.mk.injEq] at h
  have h1' : DLRepProver.getProver s d w = .ok ((q?, s'), w1) := h1
  obtain ⟨_, _, e3⟩ := getProver_dlrep h1'
  simp only at h
  refine ⟨⟨s', h.1.2.symm⟩, ?_, ?_⟩
  · unfold DLRepProver.getProver at h1'
    rw [pm_getStore_bind] at h1'
    rw [← h.1.2]
    show s'.simulated = true
    split at h1' <;>
    · rw [pm_pure_iff, Prod.mk.injEq, Prod.mk.injEq] at h1'
      rw [← h1'.1.2]
  · intro p hp
    have hq := h.1.1
    rw [hp] at hq
    cases q? with
    | none => simp at hq
    | some q =>
      simp only [Option.map_some, Option.some.injEq] at hq
      rw [← hq, ← h.1.2]
      simp only [PTree.stmtOf]
      have := (e3 q rfl).2.1
      rw [← this]; rfl

theorem getProver_or_marks {subs : List (Core E)} (hl : Leaves subs) {d : Dict Int} {w w' : World}
    {p : CoreProver E} {t' : Core E}
    (h : PTree.getProver (.or false subs) d w = .ok ((some p, t'), w')) :
    ∃ subs', PTree.stmtOf p = .or false subs' ∧ Leaves subs' ∧ Marks subs subs' ∧
      ∃ (i : Nat) (t t' : Core E), subs[i]? = some t ∧ subs'[i]? = some t' ∧ t.simulated = false ∧
        t'.simulated = true := by
  simp only [PTree.getProver] at h
  rw [pm_getStore_bind, pm_setStore_bind] at h
  simp only [Bool.false_eq_true, if_false] at h
  obtain ⟨⟨r, us⟩, w1, h1, h⟩ := pm_bind.mp h
  have loop : ∀ (fuel : Nat) (possible : List Nat) (ts us : List (Core E)) (w w' : World)
      (r : Option (Nat × CoreProver E)), Leaves ts → Marks subs ts →
      (∀ i ∈ possible, ∃ t, subs[i]? = some t ∧ t.simulated = false) →
      PTree.orLoop (PTree.getProverActs subs d) fuel possible ts w = .ok ((r, us), w') →
      Leaves us ∧ Marks subs us ∧ ∀ i p, r = some (i, p) → (∃ s, PTree.stmtOf p = .leaf s) ∧
        (PTree.stmtOf p).simulated = true ∧ ∃ t, subs[i]? = some t ∧ t.simulated = false := by
    intro fuel
    induction fuel with
    | zero =>
      intro possible ts us w w' r h1 h2 _ h
      simp only [PTree.orLoop] at h
      rw [pm_pure_iff, Prod.mk.injEq, Prod.mk.injEq] at h
      obtain ⟨⟨rfl, rfl⟩, _⟩ := h
      exact ⟨h1, h2, by simp⟩
    | succ fuel ih =>
      intro possible ts us w w' r h1 h2 hc h
      simp only [PTree.orLoop] at h
      by_cases hemp : possible.isEmpty = true
      · rw [if_pos hemp, pm_pure_iff, Prod.mk.injEq, Prod.mk.injEq] at h
        obtain ⟨⟨rfl, rfl⟩, _⟩ := h
        exact ⟨h1, h2, by simp⟩
      · rw [if_neg hemp] at h
        obtain ⟨i, w1, hi, h⟩ := pm_bind.mp h
        obtain ⟨him, _⟩ := choice_mem hi
        obtain ⟨u, hu, hus⟩ := hc i him
        obtain ⟨s, rfl⟩ := hl u (List.mem_of_getElem? hu)
        rw [acts_get, hu] at h
        simp only [Option.map_some] at h
        obtain ⟨⟨p?, t'⟩, w2, h3, h⟩ := pm_bind.mp h
        obtain ⟨⟨s', rfl⟩, e2, e3⟩ := getProver_leaf_marks h3
        have hls : Leaves (ts.set i (.leaf s')) := by
          intro t ht
          rcases List.mem_or_eq_of_mem_set ht with ht | rfl
          · exact h1 t ht
          · exact ⟨s', rfl⟩
        cases p? with
        | some p =>
          simp only at h
          rw [pm_pure_iff, Prod.mk.injEq, Prod.mk.injEq] at h
          obtain ⟨⟨rfl, rfl⟩, _⟩ := h
          refine ⟨hls, h2.set i e2, fun j q hj => ?_⟩
          simp only [Option.some.injEq, Prod.mk.injEq] at hj
          obtain ⟨rfl, rfl⟩ := hj
          exact ⟨⟨s', e3 p rfl⟩, by rw [e3 p rfl]; exact e2, _, hu, hus⟩
        | none =>
          simp only at h
          exact ih _ _ _ _ _ _ hls (h2.set i e2) (fun j hj => hc j (List.mem_of_mem_erase hj)) h
  obtain ⟨e1, e2, e3⟩ := loop _ _ _ _ _ _ _ hl (Marks.refl subs) (fun i hi => by
    obtain ⟨_, t, ht, hs⟩ := (mem_candidates subs 0 i).mp hi
    exact ⟨t, by simpa using ht, hs⟩) h1
  cases r with
  | none =>
    simp only at h
    rw [pm_pure_iff, Prod.mk.injEq, Prod.mk.injEq] at h
    simp at h
  | some ip =>
    obtain ⟨i, q⟩ := ip
    simp only at h
    obtain ⟨⟨us2, sims⟩, w2, h2, h⟩ := pm_bind.mp h
    have hus := setup_core i us us2 0 sims w1 w2 h2
    rw [hus] at h
    clear h2
    rw [pm_pure_iff, Prod.mk.injEq, Prod.mk.injEq, Option.some.injEq] at h
    obtain ⟨⟨s, f1⟩, f2, t, f3, f4⟩ := e3 i q rfl
    rw [← h.1.1]
    simp only [PTree.stmtOf]
    refine ⟨_, rfl, ?_, e2.set i f2, i, t, PTree.stmtOf q, f3, ?_, f4, f2⟩
    · intro t ht
      rcases List.mem_or_eq_of_mem_set ht with ht | rfl
      · exact e1 t ht
      · exact ⟨s, f1⟩
    · rw [List.getElem?_set]
      have := (List.getElem?_eq_some_iff.mp f3).1
      simp [show i < us.length by rw [e2.1]; exact this]

/-- Number of clauses not marked as simulated. -/
theorem count_lt {p q : Core E → Bool} : ∀ (ts us : List (Core E)), us.length = ts.length →
    (∀ (i : Nat) t u, ts[i]? = some t → us[i]? = some u → p t = false → q u = false) →
    (us.filter q).length ≤ (ts.filter p).length ∧
    ((∃ (i : Nat) (t u : Core E), ts[i]? = some t ∧ us[i]? = some u ∧ p t = true ∧ q u = false) →
      (us.filter q).length < (ts.filter p).length)
  | [], [], _, _ => ⟨le_refl _, by simp⟩
  | [], _ :: _, hl, _ => by simp at hl
  | _ :: _, [], hl, _ => by simp at hl
  | t :: ts, u :: us, hl, h => by
    obtain ⟨h1, h2⟩ := count_lt ts us (by simpa using hl) fun i t u ht hu => h (i + 1) t u ht hu
    have h0 := h 0 t u rfl rfl
    constructor
    · simp only [List.filter_cons]
      cases hp : p t with
      | false => rw [h0 hp]; simpa using h1
      | true =>
        cases hq : q u with
        | false => simp only [if_true, Bool.false_eq_true, if_false, List.length_cons]; omega
        | true => simp only [if_true, List.length_cons]; omega
    · rintro ⟨i, t', u', ht, hu, hp, hq⟩
      simp only [List.filter_cons]
      cases i with
      | zero =>
        simp only [List.getElem?_cons_zero, Option.some.injEq] at ht hu
        subst ht; subst hu
        rw [hp, hq]
        simp only [if_true, Bool.false_eq_true, if_false, List.length_cons]; omega
      | succ i =>
        have := h2 ⟨i, t', u', ht, hu, hp, hq⟩
        cases hp : p t with
        | false => rw [h0 hp]; simpa using this
        | true =>
          cases hq : q u with
          | false => simp only [if_true, Bool.false_eq_true, if_false, List.length_cons]; omega
          | true => simp only [if_true, List.length_cons]; omega

mutual
theorem solid_again : ∀ (t : Core E), Solid (Tree.blank t) ↔ Solid t
  | .leaf _ => Iff.rfl
  | .and _ subs => by
    simp only [Tree.blank, Solid, solidL_blank subs]
    cases subs <;> simp [Tree.blankL]
  | .or _ subs => by
    simp only [Tree.blank, Solid, solidL_blank subs]
    cases subs <;> simp [Tree.blankL]
theorem solidL_blank : ∀ (ts : List (Core E)), SolidL (Tree.blankL ts) ↔ SolidL ts
  | [] => Iff.rfl
  | t :: ts => by simp only [Tree.blankL, SolidL, solid_again t, solidL_blank ts]
end

theorem leaf_of_blank {t t' : Core E} (h : Tree.blank t' = Tree.blank t) (s : DLRep E) (hs : t' = .leaf s) :
    ∃ s', t = .leaf s' := by
  subst hs
  cases t with
  | leaf s' => exact ⟨s', rfl⟩
  | and _ _ => simp [Tree.blank] at h
  | or _ _ => simp [Tree.blank] at h

theorem heapFor_blank {t t' : Core E} (h : Tree.blank t' = Tree.blank t) (σ : Store) (d : Dict Int) :
    heapFor (heapFor σ d t) d t' = heapFor σ d t := by
  by_cases hl : ∃ s, t = .leaf s
  · obtain ⟨s, rfl⟩ := hl
    cases t' with
    | leaf s' => rfl
    | and _ _ => simp [Tree.blank] at h
    | or _ _ => simp [Tree.blank] at h
  · have h1 : ∀ s, t ≠ .leaf s := fun s hs => hl ⟨s, hs⟩
    have h2 : ∀ s, t' ≠ .leaf s := fun s hs => hl (leaf_of_blank h s hs)
    rw [heapFor_eq _ _ h1, heapFor_eq _ _ h2, updateSecretValues_idem]

/-- One successful call of `prove` on a conjunction. -/
theorem prove_after {env : Env E} {t t' : Core E} {d : Dict Int} {msg : String} {nizk : NIZK E} {w w' : World}
    (hs : Solid t) (ho : OrFree t) (h : prove (DLRepProver E) env t d msg w = .ok ((nizk, t'), w')) :
    Tree.blank t' = Tree.blank t ∧ After (heapFor w.store d t) d t t' := by
  obtain ⟨p, p', t1, w1, h1, _, rfl⟩ := prove_split h
  by_cases hl : ∃ s, t = .leaf s
  · obtain ⟨s, rfl⟩ := hl
    simp only [PTree.getProver] at h1
    obtain ⟨⟨q?, s'⟩, w2, h2, h1⟩ := pm_bind.mp h1
    rw [pm_pure_iff, Prod.mk.injEq, Prod.mk.injEq] at h1
    obtain ⟨e1, e2, e3⟩ := getProver_dlrep h2
    cases q? with
    | none => simp at h1
    | some q =>
      simp only [Option.map_some, Option.some.injEq] at h1
      obtain ⟨⟨rfl, _⟩, _⟩ := h1
      obtain ⟨f1, f2, f3⟩ := e3 q rfl
      refine ⟨by simp only [PTree.stmtOf, Tree.blank]; exact congrArg _ f1, .rep _ _ f1 (given_again ?_)⟩
      have h2' : DLRepProver.getProver s d w = .ok ((some q, s'), w2) := h2
      unfold DLRepProver.getProver at h2'
      rw [pm_getStore_bind] at h2'
      split at h2'
      · rw [pm_pure_iff, Prod.mk.injEq, Prod.mk.injEq] at h2'; simp at h2'
      · rw [pm_pure_iff, Prod.mk.injEq, Prod.mk.injEq, Option.some.injEq] at h2'
        rw [← h2'.1.1]
        rfl
  · have hl' : ∀ s, t ≠ .leaf s := fun s hs => hl ⟨s, hs⟩
    rw [getProver_heap hl'] at h1
    have hu : updateSecretValues (heapFor w.store d t) d = heapFor w.store d t := by
      rw [heapFor_eq _ _ hl', updateSecretValues_idem]
    exact ⟨(getProver_frame hu (wf_of_solid hs) rfl h1).2.2 p rfl,
      (getProver_after hu t ho _ _ _ _ rfl h1).2 p rfl⟩

end Zksk
