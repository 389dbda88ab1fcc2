import Verif.Lemmas.GetProver
import Verif.Model.Interactive
import Verif.SpecProver
import Mathlib.Tactic.NormNum

/-! Honest runs are accepted. -/

set_option linter.unusedSectionVars false

namespace Zksk

open Spec

variable {E : Type} [AddCommGroup E] [DecidableEq E]

theorem agree_rename {σ σv : Store} {f : Key → Key} {k : Core E} {r : Val E} {ρ : Key → Val E}
    (h : Agree σ k r ρ) : (∀ x ∈ secrets k, f (σv.key x) = σ.key x) →
      Agree σv k r (fun κ => ρ (f κ)) := by
  induction h with
  | rep s r ρ h =>
    intro hf
    refine .rep s r _ fun i x hx => ?_
    rw [h i x hx, hf x (by simp only [secrets]; exact List.mem_of_getElem? hx)]
  | all sim subs r ρ ri hri h ih =>
    intro hf
    refine .all sim subs r _ ri hri fun i t ht => ih i t ht fun x hx => hf x ?_
    exact mem_secretsL.mpr ⟨t, List.mem_of_getElem? ht, hx⟩
  | any sim subs r rs ρ ri ρi hrs hri h ih =>
    intro hf
    refine .any sim subs r rs _ ri (fun i κ => ρi i (f κ)) hrs hri fun i t ht =>
      ih i t ht fun x hx => hf x ?_
    exact mem_secretsL.mpr ⟨t, List.mem_of_getElem? ht, hx⟩

theorem sees_fn {σ σv : Store} {vs : List Sec} (h : Sees σ σv vs) :
    ∃ f : Key → Key, ∀ x ∈ vs, f (σv.key x) = σ.key x := by
  classical
  refine ⟨fun κ => if h : ∃ x ∈ vs, σv.key x = κ then σ.key h.choose else κ, fun x hx => ?_⟩
  have hex : ∃ y ∈ vs, σv.key y = σv.key x := ⟨x, hx, rfl⟩
  simp only [dif_pos hex]
  exact h.2 _ hex.choose_spec.1 _ hx hex.choose_spec.2

section
variable {L P : Type} [StmtOps E L] [StmtView E L] [Blank L] [Judged L] [ProverOps E L P]

/-- What a leaf prover has to do when committing. -/
def CommitLeaf (HL : P → Prop) (σ : Store) (X : Key → Int) : Prop :=
  ∀ (p : P) (k : Core E), HL p → StmtView.core (ProverOps.stmtOf p) = some k → WellFormed k →
    ∀ (w w' : World) (d : Option (Dict Int)) (com : Val E) (p' : P),
    (∀ d0, d = some d0 → d0.Uniq σ) → w.store = σ →
    ProverOps.internalCommit p d w = .ok ((com, p'), w') →
    w'.store = σ ∧ ProverOps.stmtOf p' = ProverOps.stmtOf p ∧
      CommitLaw σ X k d com (ProverOps.computeResponse p')

/-- The leaf provers that are really run. -/
theorem mem_activeL {q : P} {ps : List (PTree E L P)} : q ∈ activeL ps ↔ ∃ p ∈ ps, q ∈ active p := by
  induction ps with
  | nil => simp [activeL]
  | cons p ps ih => simp [activeL, ih]

theorem honest_fix {HL : P → Prop} {σ : Store} {X : Key → Int} {p : PTree E L P} {Y : Key → Int}
    (h : Honest (fun p _ => HL p) σ p Y) (hY : Y = X) :
    Honest (fun p Y => HL p ∧ Y = X) σ p Y := by
  subst hY
  suffices hh : ∀ (p : PTree E L P) (Z : Key → Int), Honest (fun p _ => HL p) σ p Z →
      Honest (fun p Z => HL p ∧ Z = Y) σ p Y from hh p Y h
  intro p
  induction p using PTree.ind with
  | leaf p => intro Z h; cases h with | leaf _ _ h => exact .leaf p Y ⟨h, rfl⟩
  | and s subs ih =>
    intro Z h
    cases h with
    | and _ _ _ h => exact .and s subs Y fun p hp => ih p hp Z (h p hp)
  | or s idx stmts sub sims ih =>
    intro Z h
    cases h with
    | or _ _ _ _ _ _ X' hi hs h => exact .or s idx stmts sub sims Y Y hi hs (ih X' h)

theorem honest_and {PL A : P → Prop} {σ : Store} : ∀ (p : PTree E L P) (X : Key → Int),
    Honest (fun p _ => PL p) σ p X → (∀ q ∈ active p, A q) → Honest (fun p _ => PL p ∧ A p) σ p X := by
  intro p
  induction p using PTree.ind with
  | leaf p => intro X h ha; cases h with | leaf _ _ h => exact .leaf p X ⟨h, ha p (by simp [active])⟩
  | and s subs ih =>
    intro X h ha
    cases h with
    | and _ _ _ h =>
      exact .and s subs X fun p hp => ih p hp X (h p hp) fun q hq =>
        ha q (by simp only [active]; exact mem_activeL.mpr ⟨p, hp, hq⟩)
  | or s idx stmts sub sims ih =>
    intro X h ha
    cases h with
    | or _ _ _ _ _ _ X' hi hs h =>
      exact .or s idx stmts sub sims X X' hi hs (ih X' h fun q hq => ha q (by simpa only [active] using hq))

theorem primed_and {PL A : P → Prop} : ∀ (p : PTree E L P),
    Primed PL p → (∀ q ∈ active p, A q) → Primed (fun p => PL p ∧ A p) p := by
  intro p
  induction p using PTree.ind with
  | leaf p => intro h ha; cases h with | leaf _ h => exact .leaf p ⟨h, ha p (by simp [active])⟩
  | and s subs ih =>
    intro h ha
    cases h with
    | and _ _ hne h =>
      exact .and s subs hne fun p hp => ih p hp (h p hp) fun q hq =>
        ha q (by simp only [active]; exact mem_activeL.mpr ⟨p, hp, hq⟩)
  | or s idx stmts sub sims ih =>
    intro h ha
    cases h with
    | or _ _ _ _ _ h1 h2 h3 h =>
      exact .or s idx stmts sub sims h1 h2 h3 (ih h fun q hq => ha q (by simpa only [active] using hq))

/-- Precommit, commit, and answer: what an honest prover sends. -/
theorem run_law {PL HL : Store → P → Prop} {foot scope : P → Sec → Prop} {X : Key → Int}
    (hstab : ∀ p σ σ', PL σ p → Same (scope p) σ σ' → PL σ' p)
    (h1 : PrecommitLeaf PL HL foot scope) (h2 : ∀ σ, CommitLeaf (HL σ) σ X)
    {p p1 p2 : PTree E L P} {w w1 w2 : World} (hp : Primed (PL w.store) p)
    (hh : Honest (fun p _ => PL w.store p) w.store p X) (ha : Apart foot scope p) {v com : Val E}
    (hpre : PTree.precommit p w = .ok ((v, p1), w1))
    (hcom : PTree.internalCommit p1 none w1 = .ok ((com, p2), w2)) :
    w2.store = w1.store ∧ AcceptsT (PTree.stmtOf p1) v ∧ PTree.stmtOf p2 = PTree.stmtOf p1 ∧
    Tree.blank (PTree.stmtOf p1) = Tree.blank (PTree.stmtOf p) ∧
    ∃ k, Tree.core (PTree.stmtOf p1) = some k ∧ WellFormed k ∧
      CommitLaw w1.store X k none com (PTree.computeResponse p2) := by
  obtain ⟨e1, e2, e3, ⟨k, e4, e5⟩, e6⟩ := precommit_law X hstab h1 p p1 w w1 v hp hh ha hpre
  have e2' := honest_fix (e2 w1.store (Same.refl _ _)) rfl
  obtain ⟨f1, f2, f3⟩ := commit_law (fun p Y => HL w1.store p ∧ Y = X) w1.store
    (fun p Y k hp hk hwf w w' d com p' hu hw h => by
      obtain ⟨hp, rfl⟩ := hp
      exact h2 _ p k hp hk hwf w w' d com p' hu hw h) p1 X k e2' e4 e5 w1 w2 none com p2 (by simp) rfl hcom
  exact ⟨f1, e3, f2, e6, k, e4, e5, f3⟩

/-- What has to hold of everything that a prover sends. -/
def Runs (X : Key → Int) (p : PTree E L P) (w : World) : Prop :=
  ∀ (v : Val E) (p1 : PTree E L P) (w1 : World) (com : Val E) (p2 : PTree E L P) (w2 : World),
    PTree.precommit p w = .ok ((v, p1), w1) → PTree.internalCommit p1 none w1 = .ok ((com, p2), w2) →
    w2.store = w1.store ∧ Digests (PTree.stmtOf p1) v ∧ PTree.stmtOf p2 = PTree.stmtOf p1 ∧
    Tree.blank (PTree.stmtOf p1) = Tree.blank (PTree.stmtOf p) ∧
    ∃ k, Tree.core (PTree.stmtOf p1) = some k ∧ WellFormed k ∧
      CommitLaw w1.store X k none com (PTree.computeResponse p2)

theorem runs_of {PL HL : Store → P → Prop} {foot scope : P → Sec → Prop} {X : Key → Int}
    (hstab : ∀ p σ σ', PL σ p → Same (scope p) σ σ' → PL σ' p)
    (h1 : PrecommitLeaf PL HL foot scope) (h2 : ∀ σ, CommitLeaf (HL σ) σ X)
    {p : PTree E L P} {w : World} (hp : Primed (PL w.store) p)
    (hh : Honest (fun p _ => PL w.store p) w.store p X) (ha : Apart foot scope p) : Runs X p w := by
  intro v p1 w1 com p2 w2 hpre hcom
  obtain ⟨e1, e2, e3⟩ := run_law hstab h1 h2 hp hh ha hpre hcom
  exact ⟨e1, e2.digests, e3⟩

theorem isId_of_sees {σ σv : Store} {t : Tree L} {S : Skel E} {k : Core E} {id : PId E}
    (hS : Tree.skel t = some S) (hk : Tree.core t = some k) (hid : Tree.proofId σ t = .ok id)
    (hsee : Sees σ σv (secrets k)) : IsId S ((secrets k).map σv.name) id := by
  have hvars : Tree.secretVars t = .ok (secrets k) := by
    rw [Tree.core_vars t k hk, secretVars_core]
  rw [← proofId_iff hS hvars, ← hid]
  exact ((Tree.proofId_eq_iff hS hS hvars hvars).mpr ⟨rfl, hsee.1⟩).symm

theorem nizk_of_runs {X : Key → Int} {p p' : PTree E L P} {w w' : World} (hrun : Runs X p w) {env : Env E}
    {msg : String} {nizk : NIZK E} (hprove : PTree.getNizkProof env p msg w = .ok ((nizk, p'), w'))
    {σv : Store} {tv : Tree L} (htv : Tree.Judge σv tv (PTree.stmtOf p))
    (hval : Tree.fullValidate (PTree.stmtOf p') = .ok ())
    (hsee : ∀ k, Tree.core (PTree.stmtOf p') = some k → Sees w'.store σv (secrets k)) :
    verify env σv tv nizk msg = .ok true := by
  unfold PTree.getNizkProof at hprove
  obtain ⟨⟨v, p1⟩, w1, hpre, h⟩ := pm_bind.mp hprove
  obtain ⟨⟨com, p2⟩, w2, hcom, h⟩ := pm_bind.mp h
  obtain ⟨e2, e3, e4, e5, k, e6, e7, e8⟩ := hrun v p1 w1 com p2 w2 hpre hcom
  simp only at h
  rw [pm_getStore_bind, pm_liftE_bind_iff] at h
  obtain ⟨id, hid, h⟩ := h
  rw [pm_liftE_bind_iff] at h
  obtain ⟨c, hc, h⟩ := h
  obtain ⟨r, w3, hr, h⟩ := pm_bind.mp h
  rw [pm_pure_iff, Prod.mk.injEq, Prod.mk.injEq] at h
  obtain ⟨⟨hn, hp'⟩, hw'⟩ := h
  subst hp'
  rw [e4] at hid hsee hval
  rw [e2] at hid
  obtain ⟨⟨q, hq⟩, ρ, _, hresp⟩ := e8
  obtain ⟨r', w4, i1, i2, i3, i4⟩ := hresp q hq c w2 e2
  rw [hr] at i1
  injection i1 with i1
  rw [Prod.mk.injEq] at i1
  obtain ⟨i1, i5⟩ := i1
  subst i1
  have hs := hsee k e6
  rw [← hw', i5, i2] at hs
  obtain ⟨t1, g1, g2, g3, g4, g5⟩ := digest_of e3 σv (Tree.judge_blank e5 htv)
  obtain ⟨f, hf⟩ := sees_fn hs
  obtain ⟨S, _, _, hS, _⟩ := Tree.proofId_ok hid
  obtain ⟨j1, j2, j3⟩ := checks_of (env := env) (g2.trans hS) (g3.trans e6) g4 (g5.trans hval)
    (isId_of_sees hS e6 hid hs) (agree_rename i4 hf) i3
  rw [← hn]
  unfold verify
  simp only [g1, bind_ok, j1, j2, j3, hc, decide_true]

theorem nizk_accepts {PL HL : Store → P → Prop} {foot scope : P → Sec → Prop} {X : Key → Int}
    (hstab : ∀ p σ σ', PL σ p → Same (scope p) σ σ' → PL σ' p)
    (h1 : PrecommitLeaf PL HL foot scope) (h2 : ∀ σ, CommitLeaf (HL σ) σ X)
    {p p' : PTree E L P} {w w' : World} (hp : Primed (PL w.store) p)
    (hh : Honest (fun p _ => PL w.store p) w.store p X) (ha : Apart foot scope p) {env : Env E}
    {msg : String} {nizk : NIZK E} (hprove : PTree.getNizkProof env p msg w = .ok ((nizk, p'), w'))
    {σv : Store} {tv : Tree L} (htv : Tree.Judge σv tv (PTree.stmtOf p))
    (hval : Tree.fullValidate (PTree.stmtOf p') = .ok ())
    (hsee : ∀ k, Tree.core (PTree.stmtOf p') = some k → Sees w'.store σv (secrets k)) :
    verify env σv tv nizk msg = .ok true :=
  nizk_of_runs (runs_of hstab h1 h2 hp hh ha) hprove htv hval hsee

theorem sigma_of_runs [ChallengeOps L] {X : Key → Int} {p p1 p2 : PTree E L P} {w w1 w2 : World}
    (hrun : Runs X p w) {env : Env E}
    {v com : Val E} (hpre : PTree.precommit p w = .ok ((v, p1), w1))
    (hcom : PTree.internalCommit p1 none w1 = .ok ((com, p2), w2))
    {σv : Store} {tv : Tree L} (htv : Tree.Judge σv tv (PTree.stmtOf p))
    (hval : Tree.fullValidate (PTree.stmtOf p1) = .ok ())
    (hsee : ∀ k, Tree.core (PTree.stmtOf p1) = some k → Sees w1.store σv (secrets k))
    (hgate : ∀ t1, Tree.process σv (Tree.freshVerifier tv) v = .ok t1 → Tree.gate t1 = .ok ()) :
    ∃ w', sigmaProtocol env σv tv p w = .ok (true, w') := by
  obtain ⟨e2, e3, e4, e5, k, e6, e7, e8⟩ := hrun v p1 w1 com p2 w2 hpre hcom
  obtain ⟨t1, g1, g2, g3, g4, g5⟩ := e3.1 σv tv (Tree.judge_blank e5 htv)
  have hs := hsee k e6
  obtain ⟨⟨q, hq⟩, ρ, _, hresp⟩ := e8
  have hvars : Tree.secretVars (PTree.stmtOf p1) = .ok (secrets k) := by
    rw [Tree.core_vars _ k e6, secretVars_core]
  obtain ⟨S, hS⟩ : ∃ S, Tree.skel (PTree.stmtOf p1) = some S := by
    rw [← Option.isSome_iff_exists, ← Tree.core_skel, e6]; rfl
  obtain ⟨id, _, hid, _⟩ := Tree.proofId_isOk (σ := w1.store) hS
  obtain ⟨f, hf⟩ := sees_fn hs
  have hc : ∃ (c : Int) (w3 : World), getRandomNum challengeLength w2 = .ok (c, w3) ∧
      w3.store = w1.store := by
    unfold getRandomNum draw
    rw [if_neg (by norm_num [challengeLength])]
    exact ⟨_, _, rfl, e2⟩
  obtain ⟨c, w3, hc, hw3⟩ := hc
  obtain ⟨r, w4, i1, i2, i3, i4⟩ := hresp q hq c w3 hw3
  obtain ⟨j1, j2, j3⟩ := checks_of (env := env) (g2.trans hS) (g3.trans e6) g4 (g5.trans hval)
    (isId_of_sees hS e6 hid hs) (agree_rename i4 hf) i3
  refine ⟨w4, ?_⟩
  unfold sigmaProtocol
  rw [pm_bind]
  refine ⟨_, _, hpre, ?_⟩
  simp only
  rw [pm_liftE_bind_iff]
  refine ⟨t1, g1, ?_⟩
  rw [pm_bind]
  refine ⟨((env.digest id, com), p2), w2, ?_, ?_⟩
  · unfold PTree.commit
    rw [pm_getStore_bind, pm_liftE_bind_iff]
    refine ⟨id, hid, ?_⟩
    rw [pm_bind]
    exact ⟨_, _, hcom, rfl⟩
  · simp only
    rw [pm_bind]
    refine ⟨c, w3, ?_, ?_⟩
    · unfold sendChallenge
      rw [pm_liftE_bind_iff]
      refine ⟨id, j1, ?_⟩
      rw [pm_liftE_bind_iff]
      exact ⟨(), hgate t1 g1, hc⟩
    · rw [pm_bind]
      refine ⟨r, w4, i1, ?_⟩
      rw [liftE_iff]
      unfold verifyResponse
      simp only [j2, j3, bind_ok, decide_true, and_self]

theorem sigma_accepts [ChallengeOps L] {PL HL : Store → P → Prop} {foot scope : P → Sec → Prop}
    {X : Key → Int} (hstab : ∀ p σ σ', PL σ p → Same (scope p) σ σ' → PL σ' p)
    (h1 : PrecommitLeaf PL HL foot scope) (h2 : ∀ σ, CommitLeaf (HL σ) σ X)
    {p p1 p2 : PTree E L P} {w w1 w2 : World} (hp : Primed (PL w.store) p)
    (hh : Honest (fun p _ => PL w.store p) w.store p X) (ha : Apart foot scope p) {env : Env E}
    {v com : Val E} (hpre : PTree.precommit p w = .ok ((v, p1), w1))
    (hcom : PTree.internalCommit p1 none w1 = .ok ((com, p2), w2))
    {σv : Store} {tv : Tree L} (htv : Tree.Judge σv tv (PTree.stmtOf p))
    (hval : Tree.fullValidate (PTree.stmtOf p1) = .ok ())
    (hsee : ∀ k, Tree.core (PTree.stmtOf p1) = some k → Sees w1.store σv (secrets k))
    (hgate : ∀ t1, Tree.process σv (Tree.freshVerifier tv) v = .ok t1 → Tree.gate t1 = .ok ()) :
    ∃ w', sigmaProtocol env σv tv p w = .ok (true, w') :=
  sigma_of_runs (runs_of hstab h1 h2 hp hh ha) hpre hcom htv hval hsee hgate

end

end Zksk
