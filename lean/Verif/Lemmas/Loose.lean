import Verif.Lemmas.Complete

/-! Leaves that stay outside of disjunctions need no simulation, and their precommitments may count as
missing. -/

set_option linter.unusedSectionVars false

namespace Zksk

open Spec

variable {E : Type} [AddCommGroup E] [DecidableEq E]

section
variable {L : Type} [StmtOps E L] [StmtView E L] [Blank L] [Judged L]

/-- `AcceptsT`, with an exception for leaves that are loose. -/
def AcceptsL (loose : L → Prop) (t : Tree L) (v : Val E) : Prop :=
  Accepts t v ∧ (v.truthy = false → (v = .none ∧ Bare t) ∨ (v ≠ .none ∧ ∃ l, t = .leaf l ∧ loose l))

theorem AcceptsT.loosen {t : Tree L} {v : Val E} (h : AcceptsT t v) (loose : L → Prop) : AcceptsL loose t v :=
  ⟨h.1, fun e => .inl (h.2 e)⟩

theorem AcceptsL.digests {loose : L → Prop} {t : Tree L} {v : Val E} (h : AcceptsL loose t v) : Digests t v := by
  refine ⟨h.1, fun e => ?_⟩
  subst e
  rcases h.2 rfl with h | h
  · exact h.2
  · exact (h.1 rfl).elim

theorem AcceptsL.tighten {loose : L → Prop} {l : L} {v : Val E} (h : AcceptsL loose (.leaf l) v) (hl : ¬ loose l) :
    AcceptsT (.leaf l) v := by
  refine ⟨h.1, fun e => ?_⟩
  rcases h.2 e with h | ⟨_, l', e', h⟩
  · exact h
  · cases e'; exact (hl h).elim

theorem acceptsL_processL (loose : L → Prop) (σ : Store) {ts : List (Tree L)} {vs : List (Val E)}
    (h : List.Forall₂ (AcceptsL loose) ts vs) : ∀ (pre : List (Val E)) (tvs : List (Tree L)),
    Tree.JudgeL σ tvs ts →
    ∃ ts1, Tree.processL σ (Tree.freshVerifierL tvs) pre.length (.list (pre ++ vs)) = .ok ts1 ∧
      Tree.skelL ts1 = Tree.skelL ts ∧ Tree.coreL ts1 = Tree.coreL ts ∧ Tree.ReadyL ts1 ∧
        Tree.fullValidateL ts1 = Tree.fullValidateL ts := by
  induction h with
  | nil =>
    intro pre tvs htv
    cases tvs with
    | nil => exact ⟨[], rfl, rfl, rfl, trivial, rfl⟩
    | cons => simp [Tree.JudgeL] at htv
  | @cons t v ts vs h1 _ ih =>
    intro pre tvs htv
    cases tvs with
    | nil => simp [Tree.JudgeL] at htv
    | cons tv tvs =>
      simp only [Tree.JudgeL] at htv
      obtain ⟨t1, e1, e2, e3, e4, e5⟩ := h1.1 σ tv htv.1
      obtain ⟨ts1, f1, f2, f3, f4, f5⟩ := ih (pre ++ [v]) tvs htv.2
      refine ⟨t1 :: ts1, ?_, ?_, ?_, ⟨e4, f4⟩, by simp only [Tree.fullValidateL, e5, f5]⟩
      · simp only [Tree.freshVerifierL, Tree.processL]
        have : (Val.list (pre ++ v :: vs)).index pre.length = .ok v := by
          rw [index_list]; simp
        rw [this, bind_ok, e1, bind_ok]
        simp only [List.length_append, List.length_cons, List.length_nil, List.append_assoc,
          List.cons_append, List.nil_append, Nat.zero_add] at f1
        rw [f1]; rfl
      · simp only [Tree.skelL, e2, f2]
      · simp only [Tree.coreL, e3, f3]

/-- Conjunction of precommitments. -/
theorem acceptsL_and {loose : L → Prop} {s : Bool} {ts : List (Tree L)} {vs : List (Val E)}
    (h : List.Forall₂ (AcceptsL loose) ts vs) : AcceptsT (.and s ts) (PTree.andPrecommitment vs) := by
  unfold PTree.andPrecommitment
  split
  · rename_i hv
    refine acceptsT_none_and fun t ht => ?_
    obtain ⟨i, hi⟩ := List.getElem?_of_mem ht
    obtain ⟨hlt, rfl⟩ := List.getElem?_eq_some_iff.mp hi
    have h1 := (List.forall₂_iff_get.mp h).2 i hlt (h.length_eq ▸ hlt)
    refine h1.digests.2 ?_
    rw [← isNone_iff]
    exact List.all_eq_true.mp hv _ (List.get_mem _ _)
  · rename_i hv
    have hne : vs ≠ [] := by rintro rfl; simp at hv
    refine ⟨?_, ?_⟩
    · intro σ tv htv
      obtain ⟨s', tvs, rfl, htvs⟩ := Tree.judge_and_inv htv
      obtain ⟨ts1, f1, f2, f3, f4, f5⟩ := acceptsL_processL loose σ h [] tvs htvs
      refine ⟨.and s' ts1, ?_, ?_, ?_, f4, f5⟩
      · simp only [List.length_nil, List.nil_append] at f1
        simp [Tree.freshVerifier, Tree.process, Val.isNone, f1, bind_ok]
      · simp only [Tree.skel, f2]
      · simp only [Tree.core, f3]
    · intro ht
      cases vs with
      | nil => exact absurd rfl hne
      | cons => simp [Val.truthy] at ht

/-- All leaves satisfy `GL`, those under disjunctions satisfy `GS`, no composition is empty. -/
inductive GoodT {L : Type} (GL GS : L → Prop) : Tree L → Prop
  | leaf (l : L) (h : GL l) : GoodT GL GS (.leaf l)
  | and (s : Bool) (ts : List (Tree L)) (hne : ts ≠ []) (h : ∀ t ∈ ts, GoodT GL GS t) : GoodT GL GS (.and s ts)
  | or (s : Bool) (ts : List (Tree L)) (h : Good GS (.or s ts)) : GoodT GL GS (.or s ts)

theorem goodT_of_good {L : Type} {GL GS : L → Prop} (hi : ∀ l, GS l → GL l) {t : Tree L} (h : Good GS t) :
    GoodT GL GS t := by
  induction h with
  | leaf l h => exact .leaf l (hi l h)
  | and s ts hne _ ih => exact .and s ts hne ih
  | or s ts hne h _ => exact .or s ts (.or s ts hne h)

theorem good_wider {L : Type} {Q R : L → Prop} (hi : ∀ l, Q l → R l) {t : Tree L} (h : Good Q t) : Good R t := by
  induction h with
  | leaf l h => exact .leaf l (hi l h)
  | and s ts hne _ ih => exact .and s ts hne ih
  | or s ts hne _ ih => exact .or s ts hne ih

theorem good_of_goodT {L : Type} {GL GS Q : L → Prop} (h1 : ∀ l, GL l → Q l) (h2 : ∀ l, GS l → Q l) {t : Tree L}
    (h : GoodT GL GS t) : Good Q t := by
  induction h with
  | leaf l h => exact .leaf l (h1 l h)
  | and s ts hne _ ih => exact .and s ts hne ih
  | or s ts h => exact good_wider h2 h
end

section
variable {L P : Type} [StmtOps E L] [StmtView E L] [Blank L] [Judged L] [ProverOps E L P]

/-- The leaves that are run under disjunctions are not loose. -/
inductive Firm (loose : L → Prop) : PTree E L P → Prop
  | leaf (p : P) : Firm loose (.leaf p)
  | and (s : Bool) (subs : List (PTree E L P)) (h : ∀ p ∈ subs, Firm loose p) : Firm loose (.and s subs)
  | or (s : Bool) (idx : Nat) (stmts : List (Tree L)) (sub : PTree E L P) (sims : List (Sim E))
      (h : ∀ q ∈ active sub, ¬ loose (ProverOps.stmtOf q)) : Firm loose (.or s idx stmts sub sims)

theorem primed_active {PL : P → Prop} : ∀ (p : PTree E L P), Primed PL p → ∀ q ∈ active p, PL q := by
  intro p
  induction p using PTree.ind with
  | leaf p => intro h q hq; cases h with | leaf _ h => simp only [active, List.mem_singleton] at hq; subst hq; exact h
  | and s subs ih =>
    intro h q hq
    cases h with
    | and _ _ _ h =>
      simp only [active] at hq
      obtain ⟨p, hp, hq⟩ := mem_activeL.mp hq
      exact ih p hp (h p hp) q hq
  | or s idx stmts sub sims ih =>
    intro h q hq
    cases h with
    | or _ _ _ _ _ _ _ _ h => exact ih h q (by simpa only [active] using hq)

theorem primed_wider {PL PL' : P → Prop} (hi : ∀ p, PL p → PL' p) {p : PTree E L P} (h : Primed PL p) :
    Primed PL' p := by
  induction h with
  | leaf p h => exact .leaf p (hi p h)
  | and s subs hne _ ih => exact .and s subs hne ih
  | or s idx stmts sub sims h1 h2 h3 _ ih => exact .or s idx stmts sub sims h1 h2 h3 ih

theorem honest_wider {PL PL' : P → Prop} (hi : ∀ p, PL p → PL' p) {σ : Store} {X : Key → Int} {p : PTree E L P}
    (h : Honest (fun p _ => PL p) σ p X) : Honest (fun p _ => PL' p) σ p X := by
  induction h with
  | leaf p X h => exact .leaf p X (hi p h)
  | and s subs X _ ih => exact .and s subs X ih
  | or s idx stmts sub sims X X' h1 h2 _ ih => exact .or s idx stmts sub sims X X' h1 h2 ih

theorem firm_of_active {loose : L → Prop} : ∀ (p : PTree E L P),
    (∀ q ∈ active p, ¬ loose (ProverOps.stmtOf q)) → Firm loose p := by
  intro p
  induction p using PTree.ind with
  | leaf p => intro _; exact .leaf p
  | and s subs ih =>
    intro h
    exact .and s subs fun p hp => ih p hp fun q hq =>
      h q (by simp only [active]; exact mem_activeL.mpr ⟨p, hp, hq⟩)
  | or s idx stmts sub sims _ =>
    intro h
    exact .or _ _ _ _ _ fun q hq => h q (by simpa only [active] using hq)

theorem aside_wider {GL SL SL' : L → Prop} (hi : ∀ l, SL l → SL' l) {p : PTree E L P} (h : Aside GL SL p) :
    Aside GL SL' p := by
  induction h with
  | leaf p => exact .leaf p
  | and s subs hne _ ih => exact .and s subs hne ih
  | or s idx stmts sub sims hs _ ih =>
    exact .or s idx stmts sub sims (fun t ht => ⟨(hs t ht).1, good_wider hi (hs t ht).2⟩) ih

/-- `PrecommitLeaf`, with an exception for leaves that are loose. -/
def PrecommitLeafL (loose : L → Prop) (PL HL : Store → P → Prop) (foot scope : P → Sec → Prop) : Prop :=
  ∀ (p p' : P) (w w' : World) (v : Val E), PL w.store p →
    ProverOps.precommit p w = .ok ((v, p'), w') →
    Same (fun x => ¬ foot p x) w.store w'.store ∧
      (∀ σ, Same (scope p) w'.store σ → HL σ p') ∧
      AcceptsL loose (.leaf (ProverOps.stmtOf p')) v ∧
      (∃ k, StmtView.core (ProverOps.stmtOf p') = some k ∧ WellFormed k) ∧
      Blank.blank (ProverOps.stmtOf p') = Blank.blank (ProverOps.stmtOf p)

/-- **Precommitment law.** -/
theorem precommit_lawL {loose : L → Prop} (hbl : ∀ l l' : L, Blank.blank l' = Blank.blank l → loose l' → loose l)
    {PL HL : Store → P → Prop} {foot scope : P → Sec → Prop} (X : Key → Int)
    (hstab : ∀ p σ σ', PL σ p → Same (scope p) σ σ' → PL σ' p)
    (hleaf : PrecommitLeafL loose PL HL foot scope) :
    ∀ (p p' : PTree E L P) (w w' : World) (v : Val E), Primed (PL w.store) p →
      Honest (fun p _ => PL w.store p) w.store p X → Apart foot scope p → Firm loose p →
      PTree.precommit p w = .ok ((v, p'), w') →
      Same (fun x => ¬ Foot foot p x) w.store w'.store ∧
      (∀ σ, Same (Scope scope p) w'.store σ → Honest (fun p _ => HL σ p) σ p' X) ∧
      AcceptsL loose (PTree.stmtOf p') v ∧
        (∃ k, Tree.core (PTree.stmtOf p') = some k ∧ WellFormed k) ∧
        Tree.blank (PTree.stmtOf p') = Tree.blank (PTree.stmtOf p) := by
  intro p
  induction p using PTree.ind generalizing X with
  | leaf p =>
    intro p' w w' v hp _ _ _ h
    cases hp with
    | leaf _ hp =>
    simp only [PTree.precommit] at h
    obtain ⟨⟨v1, q⟩, w1, h1, h⟩ := pm_bind.mp h
    rw [pm_pure_iff, Prod.mk.injEq, Prod.mk.injEq] at h
    obtain ⟨⟨hv, hp'⟩, hw'⟩ := h
    rw [← hv, ← hp', ← hw']
    obtain ⟨e1, e2, e3, e4, e5⟩ := hleaf p q w w1 v1 hp h1
    refine ⟨fun x hx => e1 x fun hf => hx (.leaf p x hf), fun σ hσ => .leaf q X (e2 σ fun x hx => hσ x (.leaf p x hx)),
      e3, e4, by simp only [PTree.stmtOf, Tree.blank, e5]⟩
  | and s subs ih =>
    intro p' w w' v hp hh ha hf h
    cases hp with
    | and _ _ hne hp =>
    cases hh with
    | and _ _ _ hh =>
    cases ha with
    | and _ _ ha hd =>
    cases hf with
    | and _ _ hf =>
    have loop : ∀ (ps : List (PTree E L P)) (off : Nat), (∀ i, subs[off + i]? = ps[i]?) →
        ∀ (w w' : World)
        (vs : List (Val E)) (ps' : List (PTree E L P)), (∀ p ∈ ps, Primed (PL w.store) p) →
        (∀ p ∈ ps, Honest (fun p _ => PL w.store p) w.store p X) →
        PTree.precommitL ps w = .ok ((vs, ps'), w') →
        Same (fun x => ∀ p ∈ ps, ¬ Foot foot p x) w.store w'.store ∧
        (∀ σ, Same (fun x => ∃ p ∈ ps, Scope scope p x) w'.store σ →
          ∀ p ∈ ps', Honest (fun p _ => HL σ p) σ p X) ∧
        List.Forall₂ (AcceptsL loose) (PTree.stmtOfL ps') vs ∧
          (∀ t ∈ PTree.stmtOfL ps', ∃ k, Tree.core t = some k ∧ WellFormed k) ∧
          Tree.blankL (PTree.stmtOfL ps') = Tree.blankL (PTree.stmtOfL ps) := by
      intro ps
      induction ps with
      | nil =>
        intro _ _ w w' vs ps' _ _ h
        simp only [PTree.precommitL, pm_pure_iff, Prod.mk.injEq] at h
        rw [← h.1.1, ← h.1.2, ← h.2]
        exact ⟨Same.refl _ _, by simp, .nil, by simp [PTree.stmtOfL], rfl⟩
      | cons p ps ihl =>
        intro off hoff w w' vs ps' hp hh h
        simp only [PTree.precommitL] at h
        obtain ⟨⟨v1, p1⟩, w1, h1, h⟩ := pm_bind.mp h
        obtain ⟨⟨vs1, ps1⟩, w2, h2, h⟩ := pm_bind.mp h
        rw [pm_pure_iff, Prod.mk.injEq, Prod.mk.injEq] at h
        rw [← h.1.1, ← h.1.2, ← h.2]
        have h0 : subs[off]? = some p := by simpa using hoff 0
        have hpm : p ∈ subs := List.mem_of_getElem? h0
        have hq : ∀ q ∈ ps, (∀ x, Foot foot p x → ¬ Scope scope q x) ∧
            (∀ x, Foot foot q x → ¬ Scope scope p x) := by
          intro q hq
          obtain ⟨j, hj⟩ := List.getElem?_of_mem hq
          have hj' : subs[off + (j + 1)]? = some q := by rw [hoff (j + 1)]; simpa using hj
          exact ⟨fun x => hd off (off + (j + 1)) p q x (by omega) h0 hj',
            fun x => hd (off + (j + 1)) off q p x (by omega) hj' h0⟩
        obtain ⟨e1, e2, e3, e4, e5⟩ := ih p hpm X p1 w w1 v1 (hp p (by simp)) (hh p (by simp)) (ha p hpm) (hf p hpm) h1
        have hkeep : ∀ q ∈ ps, Same (Scope scope q) w.store w1.store := fun q hq' x hx =>
          e1 x fun hf => (hq q hq').1 x hf hx
        obtain ⟨f1, f2, f3, f4, f5⟩ := ihl (off + 1)
          (fun i => by have := hoff (i + 1); rw [show off + 1 + i = off + (i + 1) by omega, this]; simp)
          w1 w2 vs1 ps1 (fun q hq' => primed_stab hstab q _ _ (hp q (by simp [hq'])) (hkeep q hq'))
          (fun q hq' => honest_stab hstab q _ _ X (hh q (by simp [hq'])) (hkeep q hq')) h2
        refine ⟨?_, ?_, .cons e3 f3, ?_, ?_⟩
        · intro x hx
          exact (f1 x fun q hq' => hx q (by simp [hq'])).trans (e1 x (hx p (by simp)))
        · intro σ hσ
          refine List.forall_mem_cons.mpr ⟨e2 σ ?_, f2 σ fun x hx => ?_⟩
          · intro x hx
            rw [hσ x ⟨p, by simp, hx⟩]
            exact f1 x fun q hq' hf => (hq q hq').2 x hf hx
          · obtain ⟨q, hq', hx⟩ := hx
            exact hσ x ⟨q, by simp [hq'], hx⟩
        · simp only [PTree.stmtOfL]; exact List.forall_mem_cons.mpr ⟨e4, f4⟩
        · simp only [PTree.stmtOfL, Tree.blankL, e5, f5]
    simp only [PTree.precommit] at h
    obtain ⟨⟨vs, ps'⟩, w1, h1, h⟩ := pm_bind.mp h
    rw [pm_pure_iff, Prod.mk.injEq, Prod.mk.injEq] at h
    rw [← h.1.1, ← h.1.2, ← h.2]
    obtain ⟨e1, e2, e3, e4, e5⟩ := loop subs 0 (fun i => by simp) w w1 vs ps' hp hh h1
    have hne' : PTree.stmtOfL ps' ≠ [] := by
      intro e
      rw [e] at e5
      cases subs with
      | nil => exact hne rfl
      | cons => simp [PTree.stmtOfL, Tree.blankL] at e5
    refine ⟨fun x hx => e1 x fun p hp hf => hx (.and s subs p x hp hf),
      fun σ hσ => .and _ _ _ (e2 σ fun x hx => ?_),
      by simpa only [PTree.stmtOf] using (acceptsL_and e3).loosen loose,
      by simpa only [PTree.stmtOf] using core_and_of_forall s hne' e4,
      by simp only [PTree.stmtOf, Tree.blank, e5]⟩
    obtain ⟨p, hp, hx⟩ := hx
    exact hσ x (.and s subs p x hp hx)
  | or s idx stmts sub sims _ =>
    intro p' w w' v hp hh ha hf h
    have hf' : ∀ q ∈ active (.or s idx stmts sub sims : PTree E L P), ¬ loose (ProverOps.stmtOf q) := by
      cases hf with
      | or _ _ _ _ _ hf => intro q hq; exact hf q (by simpa only [active] using hq)
    have hleaf' : PrecommitLeaf (fun σ p => PL σ p ∧ ¬ loose (ProverOps.stmtOf p)) HL foot scope := by
      intro p p' w w' v hp hpre
      obtain ⟨e1, e2, e3, e4, e5⟩ := hleaf p p' w w' v hp.1 hpre
      exact ⟨e1, e2, e3.tighten fun hl => hp.2 (hbl _ _ e5 hl), e4, e5⟩
    obtain ⟨e1, e2, e3, e4, e5⟩ := precommit_law X (fun p σ σ' hp hs => ⟨hstab p σ σ' hp.1 hs, hp.2⟩) hleaf' _ p' w w' v
      (primed_and _ hp hf') (honest_and _ X hh hf') ha h
    exact ⟨e1, e2, e3.loosen loose, e4, e5⟩

theorem runs_ofL {loose : L → Prop} (hbl : ∀ l l' : L, Blank.blank l' = Blank.blank l → loose l' → loose l)
    {PL HL : Store → P → Prop} {foot scope : P → Sec → Prop} {X : Key → Int}
    (hstab : ∀ p σ σ', PL σ p → Same (scope p) σ σ' → PL σ' p)
    (h1 : PrecommitLeafL loose PL HL foot scope) (h2 : ∀ σ, CommitLeaf (HL σ) σ X)
    {p : PTree E L P} {w : World} (hp : Primed (PL w.store) p)
    (hh : Honest (fun p _ => PL w.store p) w.store p X) (ha : Apart foot scope p) (hf : Firm loose p) :
    Runs X p w := by
  intro v p1 w1 com p2 w2 hpre hcom
  obtain ⟨e1, e2, e3, ⟨k, e4, e5⟩, e6⟩ := precommit_lawL hbl X hstab h1 p p1 w w1 v hp hh ha hf hpre
  have e2' := honest_fix (e2 w1.store (Same.refl _ _)) rfl
  obtain ⟨f1, f2, f3⟩ := commit_law (fun p Y => HL w1.store p ∧ Y = X) w1.store
    (fun p Y k hp hk hwf w w' d com p' hu hw h => by
      obtain ⟨hp, rfl⟩ := hp
      exact h2 _ p k hp hk hwf w w' d com p' hu hw h) p1 X k e2' e4 e5 w1 w2 none com p2 (by simp) rfl hcom
  exact ⟨f1, e3.digests, f2, e6, k, e4, e5, f3⟩

/-- **`get_prover`.** -/
theorem getProver_fullT {loose GL GS TL SL : L → Prop} {PL : P → Prop} {σ : Store} {d : Dict Int}
    (hl : GetLaws GS TL SL (fun p => PL p ∧ ¬ loose (ProverOps.stmtOf p)) σ d)
    (hget : ∀ (l l' : L) (p? : Option P) (w w' : World), GL l → TL l → w.store = σ →
      ProverOps.getProver l d w = .ok ((p?, l'), w') →
      w'.store = σ ∧ GL l' ∧ Blank.blank l' = Blank.blank l ∧
        ∀ p, p? = some p → PL p ∧ Blank.blank (ProverOps.stmtOf p) = Blank.blank l)
    (X : Key → Int) : ∀ (t : Tree L), GoodT GL GS t → Sat TL t →
    ∀ (t' : Tree L) (p? : Option (PTree E L P)) (w w' : World), w.store = σ →
    PTree.getProver t d w = .ok ((p?, t'), w') →
    w'.store = σ ∧ GoodT GL GS t' ∧ Tree.blank t' = Tree.blank t ∧
      ∀ p, p? = some p → Primed PL p ∧ Honest (fun p _ => PL p) σ p X ∧
        Tree.blank (PTree.stmtOf p) = Tree.blank t ∧ Aside GS SL p ∧ Firm loose p := by
  intro t
  induction t using Tree.ind with
  | leaf l =>
    intro hg hs t' p? w w' hw h
    cases hg with
    | leaf _ hg =>
    cases hs with
    | leaf _ hs =>
    simp only [PTree.getProver] at h
    obtain ⟨⟨p1, l1⟩, w1, h1, h⟩ := pm_bind.mp h
    rw [pm_pure_iff, Prod.mk.injEq, Prod.mk.injEq] at h
    obtain ⟨⟨h2, h3⟩, h4⟩ := h
    rw [← h3, ← h4]
    obtain ⟨e1, e2, e3, e4⟩ := hget l l1 p1 w w1 hg hs hw h1
    refine ⟨e1, .leaf _ e2, by simp only [Tree.blank, e3], ?_⟩
    intro p hp
    rw [← h2] at hp
    simp only [Option.map_eq_some_iff] at hp
    obtain ⟨q, hq, rfl⟩ := hp
    obtain ⟨f1, f2⟩ := e4 q hq
    exact ⟨.leaf q f1, .leaf q X f1, by simp only [PTree.stmtOf, Tree.blank, f2], .leaf q, .leaf q⟩
  | and s ts ih =>
    intro hg hs t' p? w w' hw h
    have hgg := hg
    cases hg with
    | and _ _ hne hg =>
    cases hs with
    | and _ _ hs =>
    simp only [PTree.getProver] at h
    rw [pm_getStore_bind, pm_setStore_bind] at h
    have hup : ({ w with store := updateSecretValues w.store d } : World) = w := by
      rw [hw, hl.upd, ← hw]
    rw [hup] at h
    split at h
    · rw [pm_pure_iff, Prod.mk.injEq, Prod.mk.injEq] at h
      obtain ⟨⟨h2, h3⟩, h4⟩ := h
      rw [← h2, ← h3, ← h4]
      exact ⟨hw, hgg, rfl, by simp⟩
    · obtain ⟨⟨ps, ts1⟩, w1, h1, h⟩ := pm_bind.mp h
      have loop : ∀ (us : List (Tree L)), (∀ t ∈ us, t ∈ ts) → ∀ (ps : List (Option (PTree E L P)))
          (us' : List (Tree L)) (w w' : World), w.store = σ →
          PTree.getProverL us d w = .ok ((ps, us'), w') →
          w'.store = σ ∧ (∀ t ∈ us', GoodT GL GS t) ∧ Tree.blankL us' = Tree.blankL us ∧
          ∀ qs, PTree.allSome ps = some qs → (∀ p ∈ qs, Primed PL p) ∧
            (∀ p ∈ qs, Honest (fun p _ => PL p) σ p X) ∧
            Tree.blankL (PTree.stmtOfL qs) = Tree.blankL us ∧ (∀ p ∈ qs, Aside GS SL p) ∧ ∀ p ∈ qs, Firm loose p := by
        intro us
        induction us with
        | nil =>
          intro _ ps us' w w' hw h
          simp only [PTree.getProverL, pm_pure_iff, Prod.mk.injEq] at h
          obtain ⟨⟨rfl, rfl⟩, rfl⟩ := h
          refine ⟨hw, by simp, rfl, ?_⟩
          intro qs hqs
          simp only [PTree.allSome, Option.some.injEq] at hqs
          subst hqs
          exact ⟨by simp, by simp, rfl, by simp, by simp⟩
        | cons u us ihl =>
          intro hm ps us' w w' hw h
          simp only [PTree.getProverL] at h
          obtain ⟨⟨p1, u1⟩, w1, h1, h⟩ := pm_bind.mp h
          obtain ⟨⟨ps1, us1⟩, w2, h2, h⟩ := pm_bind.mp h
          rw [pm_pure_iff, Prod.mk.injEq, Prod.mk.injEq] at h
          obtain ⟨⟨h3, h4⟩, h5⟩ := h
          have hu := hm u (by simp)
          obtain ⟨e1, e2, e3, e4⟩ := ih u hu (hg u hu) (hs u hu) u1 p1 w w1 hw h1
          obtain ⟨f1, f2, f3, f4⟩ := ihl (fun t ht => hm t (by simp [ht])) ps1 us1 w1 w2 e1 h2
          rw [← h3, ← h4, ← h5]
          refine ⟨f1, ?_, by simp only [Tree.blankL, e3, f3], ?_⟩
          · intro t ht
            rcases List.mem_cons.mp ht with rfl | ht
            · exact e2
            · exact f2 t ht
          · intro qs hqs
            cases p1 with
            | none => simp [PTree.allSome] at hqs
            | some p1 =>
              simp only [PTree.allSome, Option.map_eq_some_iff] at hqs
              obtain ⟨qs1, hqs1, rfl⟩ := hqs
              obtain ⟨g1, g2, g3, g4, g5⟩ := e4 p1 rfl
              obtain ⟨k1, k2, k3, k4, k5⟩ := f4 qs1 hqs1
              refine ⟨?_, ?_, by simp only [PTree.stmtOfL, Tree.blankL, g3, k3],
                List.forall_mem_cons.mpr ⟨g4, k4⟩, List.forall_mem_cons.mpr ⟨g5, k5⟩⟩
              · intro p hp
                rcases List.mem_cons.mp hp with rfl | hp
                · exact g1
                · exact k1 p hp
              · intro p hp
                rcases List.mem_cons.mp hp with rfl | hp
                · exact g2
                · exact k2 p hp
      obtain ⟨f1, f2, f3, f4⟩ := loop ts (fun _ h => h) ps ts1 w w1 hw h1
      cases hqs : PTree.allSome ps with
      | none =>
        simp only [hqs] at h
        exact (raise_ne.mp h).elim
      | some qs =>
        simp only [hqs] at h
        rw [pm_pure_iff, Prod.mk.injEq, Prod.mk.injEq] at h
        obtain ⟨⟨h2, h3⟩, h4⟩ := h
        rw [← h2, ← h3, ← h4]
        obtain ⟨k1, k2, k3, k4, k5⟩ := f4 qs hqs
        refine ⟨f1, .and _ _ ?_ f2, by simp only [Tree.blank, f3], ?_⟩
        · rintro rfl
          cases ts with
          | nil => exact hne rfl
          | cons => simp [Tree.blankL] at f3
        · intro p hp
          simp only [Option.some.injEq] at hp
          subst hp
          have hqs : qs ≠ [] := by
            rintro rfl
            cases ts with
            | nil => exact hne rfl
            | cons => simp [PTree.stmtOfL, Tree.blankL] at k3
          exact ⟨.and _ _ hqs k1, .and _ _ _ k2, by simp only [PTree.stmtOf, Tree.blank, k3], .and _ _ hqs k4, .and _ _ k5⟩
  | or s ts _ =>
    intro hg hs t' p? w w' hw h
    cases hg with
    | or _ _ hg =>
    obtain ⟨e1, e2, e3, e4⟩ := getProver_full hl X _ hg hs t' p? w w' hw h
    refine ⟨e1, ?_, e3, fun p hp => ?_⟩
    · obtain ⟨s', us, rfl, _⟩ := Tree.blank_or_inv e3
      exact .or s' us e2
    · obtain ⟨f1, f2, f3, f4⟩ := e4 p hp
      refine ⟨primed_wider (fun p hp => hp.1) f1, honest_wider (fun p hp => hp.1) f2, f3, f4, ?_⟩
      have hact := primed_active p f1
      cases p with
      | leaf p => exact .leaf p
      | and s subs =>
        simp only [PTree.stmtOf, Tree.blank, reduceCtorEq] at f3
      | or s idx stmts sub sims => exact .or _ _ _ _ _ fun q hq => (hact q (by simpa only [active] using hq)).2
end

end Zksk
