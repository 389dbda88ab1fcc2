import Verif.Lemmas.Orders

/-! The honest prover: commitments and responses satisfy the verification equations. -/

set_option linter.unusedSectionVars false

namespace Zksk

open Spec

variable {E : Type} [AddCommGroup E] [DecidableEq E]

/-! ### Slots of or-provers -/

theorem orSlotsGo_eq {α : Type} (idx : Nat) (real : α) (sims : List α) (hidx : idx ≤ sims.length) :
    ∀ (k index : Nat), index + k = sims.length + 1 →
    PTree.orSlotsGo idx real sims k index = .ok ((sims.insertIdx idx real).drop index)
  | 0, index, h => by
    simp only [PTree.orSlotsGo]
    rw [List.drop_of_length_le]
    rw [List.length_insertIdx_of_le_length hidx]; omega
  | k + 1, index, h => by
    simp only [PTree.orSlotsGo]
    rw [orSlotsGo_eq idx real sims hidx k (index + 1) (by omega)]
    have hl : index < (sims.insertIdx idx real).length := by
      rw [List.length_insertIdx_of_le_length hidx]; omega
    rw [List.drop_eq_getElem_cons hl]
    by_cases h1 : index = idx
    · subst h1
      simp [bind_ok]
    · rw [if_neg h1]
      by_cases h2 : index > idx
      · have : index - 1 < sims.length := by omega
        simp only [h2, if_true, List.getElem?_eq_getElem this, bind_ok]
        rw [List.getElem_insertIdx_of_gt (by omega)]
      · have h3 : index < idx := by omega
        have : index < sims.length := by omega
        simp only [h2, if_false, List.getElem?_eq_getElem this, bind_ok]
        rw [List.getElem_insertIdx_of_lt h3]

theorem orSlots_eq {α : Type} (idx : Nat) (real : α) (sims : List α) (hidx : idx ≤ sims.length) :
    PTree.orSlots (sims.length + 1) idx real sims = .ok (sims.insertIdx idx real) := by
  unfold PTree.orSlots
  rw [orSlotsGo_eq idx real sims hidx _ 0 (by omega)]
  rfl

theorem sum_insertIdx (l : List Int) (i : Nat) (a : Int) (h : i ≤ l.length) :
    (l.insertIdx i a).sum = a + l.sum := by
  rw [(List.perm_insertIdx a l h).sum_eq]
  simp

theorem map_insertIdx {α β : Type} (f : α → β) : ∀ (l : List α) (i : Nat) (a : α),
    (l.insertIdx i a).map f = (l.map f).insertIdx i (f a)
  | l, 0, a => by simp
  | [], i + 1, a => by simp
  | b :: l, i + 1, a => by simp [map_insertIdx f l i a]

theorem set_eq_insertIdx {α : Type} : ∀ (l : List α) (i : Nat) (a : α), i < l.length →
    l.set i a = (l.eraseIdx i).insertIdx i a
  | [], i, a, h => by simp at h
  | b :: l, 0, a, h => by simp
  | b :: l, i + 1, a, h => by
    simp only [List.set_cons_succ, List.eraseIdx_cons_succ, List.insertIdx_succ_cons]
    rw [set_eq_insertIdx l i a (by simpa using h)]

/-- Reading a list with an inserted element. -/
theorem getElem?_insertIdx_cases {α β : Type} {l : List α} {l' : List β} {i : Nat} {a : α} {b : β}
    (hl : l.length = l'.length) (hi : i ≤ l.length) {P : Nat → α → β → Prop} (h0 : P i a b)
    (h1 : ∀ (j : Nat) (x : α) (y : β), l[j]? = some x → l'[j]? = some y → ∀ n, P n x y) :
    ∀ (j : Nat) (x : α) (y : β), (l.insertIdx i a)[j]? = some x → (l'.insertIdx i b)[j]? = some y → P j x y := by
  intro j x y hx hy
  rw [List.getElem?_insertIdx] at hx hy
  by_cases hji : j < i
  · simp only [hji, if_true] at hx hy
    exact h1 j x y hx hy j
  · simp only [hji, if_false] at hx hy
    by_cases hj : j = i
    · have hi' : i ≤ l'.length := by omega
      subst hj
      simp only [hi, hi', if_true, Option.some.injEq] at hx hy
      subst hx; subst hy; exact h0
    · simp only [hj, if_false] at hx hy
      exact h1 (j - 1) x y hx hy j

/-! ### DLRep -/

theorem commitGo_ok : ∀ (acc : Pt E) (ks : List Int) (bs : List (Pt E)) (p : Pt E),
    DLRepProver.commitGo acc ks bs = .ok p →
      p = ⟨acc.grp, acc.val + (List.zipWith (fun w b => w • b.val) ks bs).sum⟩
  | acc, [], bs, p, h => by
    simp only [DLRepProver.commitGo, Except.ok.injEq] at h; subst h; simp
  | acc, k :: ks, [], p, h => by
    simp only [DLRepProver.commitGo, Except.ok.injEq] at h; subst h; simp
  | acc, k :: ks, b :: bs, p, h => by
    simp only [DLRepProver.commitGo] at h
    obtain ⟨a, ha, h⟩ := bind_ok_iff.mp h
    unfold Pt.add at ha
    split at ha
    · injection ha with ha; subst ha
      rw [commitGo_ok _ ks bs p h]
      simp [Pt.smul, add_assoc]
    · cases ha

theorem respondGo_ok (σ : Store) (vals : Dict Int) (q : Nat) (c : Int) (X : Key → Int) :
    ∀ (vs : List Sec) (ks : List Int), (∀ x ∈ vs, Dict.get? σ vals x = some (X (σ.key x))) →
    vs.length = ks.length →
    DLRepProver.respondGo σ vals q c vs ks =
      .ok (List.zipWith (fun x k => (X (σ.key x) * c + k) % (q : Int)) vs ks)
  | [], [], _, _ => rfl
  | [], _ :: _, _, h => by simp at h
  | _ :: _, [], _, h => by simp at h
  | x :: vs, k :: ks, h, hl => by
    simp only [DLRepProver.respondGo]
    rw [Dict.get_ok.mpr (h x (by simp)), bind_ok,
      respondGo_ok σ vals q c X vs ks (fun y hy => h y (by simp [hy])) (by simpa using hl), bind_ok]
    rfl

/-- The algebra behind completeness. -/
theorem response_sum (σ : Store) (q : Nat) (c : Int) (X : Key → Int) :
    ∀ (vs : List Sec) (ks : List Int) (bs : List (Pt E)), vs.length = ks.length →
    (∀ b ∈ bs, (q : Int) • b.val = 0) →
    (List.zipWith (fun w b => w • b.val)
        (List.zipWith (fun x k => (X (σ.key x) * c + k) % (q : Int)) vs ks) bs).sum
      = (List.zipWith (fun w b => w • b.val) ks bs).sum
        + c • (List.zipWith (fun x b => X (σ.key x) • b.val) vs bs).sum
  | [], [], bs, _, _ => by simp
  | [], _ :: _, _, h, _ => by simp at h
  | _ :: _, [], _, h, _ => by simp at h
  | x :: vs, k :: ks, [], _, _ => by simp
  | x :: vs, k :: ks, b :: bs, hl, hq => by
    simp only [List.zipWith_cons_cons, List.sum_cons]
    rw [response_sum σ q c X vs ks bs (by simpa using hl) (fun b hb => hq b (by simp [hb]))]
    have hmod : ((X (σ.key x) * c + k) % (q : Int)) • b.val = (X (σ.key x) * c + k) • b.val := by
      have hb := hq b (by simp)
      have e := Int.emod_add_mul_ediv (X (σ.key x) * c + k) (q : Int)
      have e2 : ((q : Int) * ((X (σ.key x) * c + k) / (q : Int))) • b.val = 0 := by
        rw [mul_comm, mul_smul, hb, smul_zero]
      conv_rhs => rw [← e, add_smul, e2, add_zero]
    rw [hmod, add_smul, smul_add, mul_comm, mul_smul]
    abel

/-- A DLRep prover that knows values `X` for which its statement is true. -/
def HonestRep (σ : Store) (p : DLRepProver E) (X : Key → Int) : Prop :=
  (∀ x ∈ p.stmt.secretVars, Dict.get? σ p.secretValues x = some (X (σ.key x))) ∧
  Holds σ (.leaf p.stmt) X ∧ Torsion (.leaf p.stmt)

/-- What commitment and responses of a prover satisfy. -/
def CommitLaw (σ : Store) (X : Key → Int) (k : Core E) (d : Option (Dict Int)) (com : Val E)
    (respond : Int → PM (Val E)) : Prop :=
  (∃ q, OrdersOK σ q k) ∧
  ∃ ρ : Key → Int, (∀ d0, d = some d0 → ∀ x ∈ secrets k, ∀ v, Dict.get? σ d0 x = some v →
      ρ (σ.key x) = v) ∧
    ∀ q, OrdersOK σ q k → ∀ c w, w.store = σ → ∃ resp w', respond c w = .ok (resp, w') ∧
      w'.store = σ ∧ Eqns k c resp com ∧
      Agree σ k resp (fun κ => .int ((X κ * c + ρ κ) % (q κ : Int)))

theorem commit_dlrep (p : DLRepProver E) {σ : Store} {X : Key → Int} (hp : HonestRep σ p X)
    (hwf : WellFormed (.leaf p.stmt : Core E)) {w w' : World} {d : Option (Dict Int)} {com : Val E}
    {p' : DLRepProver E} (hu : ∀ d0, d = some d0 → d0.Uniq σ) (hw : w.store = σ)
    (h : DLRepProver.internalCommit p d w = .ok ((com, p'), w')) :
    w'.store = σ ∧ p'.stmt = p.stmt ∧
      CommitLaw σ X (.leaf p.stmt) d com (DLRepProver.computeResponse p') := by
  obtain ⟨hvals, hholds, htor⟩ := hp
  simp only [WellFormed] at hwf
  cases hholds with
  | rep s X hgrp hsum =>
  unfold DLRepProver.internalCommit at h
  obtain ⟨d', w1, h1, h⟩ := pm_bind.mp h
  rw [pm_getStore_bind, pm_liftE_bind_iff] at h
  obtain ⟨ks, hks, h⟩ := h
  obtain ⟨cm, hcm, h⟩ := pm_liftE_bind_iff.mp h
  rw [pm_pure_iff, Prod.mk.injEq, Prod.mk.injEq] at h
  obtain ⟨⟨hcom, hp'⟩, hw'⟩ := h
  subst hw
  obtain ⟨e1, e2, e3⟩ := updateRandomizersWith_ok (vars := p.stmt.secretVars)
    (fun w' d' h => DLRep.getRandomizers_ok h) hu h1
  rw [e1] at hks
  obtain ⟨l1, l2⟩ := lookupAll_ok hks
  subst hw'; subst hp'; subst hcom
  -- the bases
  cases hbs : p.stmt.bases with
  | nil => simp [DLRepProver.commitWith, hbs] at hcm
  | cons b bs =>
    simp only [DLRepProver.commitWith, hbs] at hcm
    have hcm' := commitGo_ok _ _ _ _ hcm
    have hbg : b.grp = p.stmt.lhs.grp := hgrp b (by simp [hbs])
    have hord : ∀ q, OrdersOK w.store q (.leaf p.stmt) → ∀ x ∈ p.stmt.secretVars,
        q (w.store.key x) = b.grp.order := by
      intro q hq x hx
      obtain ⟨c, hc⟩ := Tree.mem_zip_left hx (le_of_eq hwf)
      rw [hq x c (by simpa [terms] using hc)]
      rw [hgrp c (List.of_mem_zip hc).2, hbg]
    have htor' : ∀ c ∈ b :: bs, (b.grp.order : Int) • c.val = 0 := by
      intro c hc
      have : ∃ x, (x, c) ∈ p.stmt.secretVars.zip p.stmt.bases := by
        obtain ⟨i, hi⟩ := List.mem_iff_getElem?.mp (hbs ▸ hc)
        have hlt := (List.getElem?_eq_some_iff.mp hi).1
        exact ⟨p.stmt.secretVars[i]'(by omega), mem_zip_iff.mpr
          ⟨i, List.getElem?_eq_getElem _, hi⟩⟩
      obtain ⟨x, hx⟩ := this
      have := htor x c (by simpa [terms] using hx)
      rwa [hgrp c (hbs ▸ hc), ← hbg] at this
    refine ⟨e1, rfl, ⟨fun _ => b.grp.order, ?_⟩, Dict.fn w.store 0 d', ?_, ?_⟩
    · intro x c hx
      simp only [terms] at hx
      rw [hgrp c (List.of_mem_zip hx).2, hbg]
    · intro d0 hd0 x _ v hv
      exact (Dict.get?_fn (e3 d0 hd0 x v hv)).symm
    · intro q hq c w1 hw1
      refine ⟨.list ((List.zipWith (fun x k => (X (w.store.key x) * c + k) % (b.grp.order : Int))
        p.stmt.secretVars ks).map .int), w1, ?_, hw1, ?_, ?_⟩
      · unfold DLRepProver.computeResponse
        rw [pm_getStore_bind]
        simp only [hbs]
        rw [hw1, respondGo_ok w.store _ _ c X _ _ hvals l1.symm, pm_liftE_bind]
        rfl
      · rw [hcm']
        have key := Eqns.rep p.stmt c (.list ((List.zipWith
          (fun x k => (X (w.store.key x) * c + k) % (b.grp.order : Int))
          p.stmt.secretVars ks).map .int)) _ (List.zipWith
          (fun x k => (X (w.store.key x) * c + k) % (b.grp.order : Int)) p.stmt.secretVars ks) rfl
          (by intro _; simp [l1, hwf]) (by
            rw [List.take_of_length_le]; simp [l1, hwf])
          (fun c hc => hgrp c (List.mem_of_mem_take hc))
        have hv : (b.grp.inf : Pt E).val + (List.zipWith (fun w b => w • b.val) ks (b :: bs)).sum
            = (List.zipWith (fun w b => w • b.val) (List.zipWith
          (fun x k => (X (w.store.key x) * c + k) % (b.grp.order : Int)) p.stmt.secretVars ks)
            p.stmt.bases).sum - c • p.stmt.lhs.val := by
          rw [hbs, response_sum w.store b.grp.order c X _ _ _ l1.symm htor', hsum, hbs]
          simp [Grp.inf]
        rw [hv]
        have hg : (b.grp.inf : Pt E).grp = p.stmt.lhs.grp := hbg
        rw [hg]
        exact key
      · refine .rep _ _ _ fun i x hx => ?_
        obtain ⟨v, hv, hg⟩ := l2 i x hx
        rw [index_list]
        simp only [List.getElem?_map, List.getElem?_zipWith, hx, hv, Option.map_some]
        rw [hord q hq x (List.mem_of_getElem? hx), ← Dict.get?_fn hg]

/-! ### Trees -/

section
variable {L P : Type} [StmtOps E L] [StmtView E L] [ProverOps E L P]

/-- The transcripts `sims` are valid for the clauses `ts`. -/
def SimsOK (σ : Store) (ts : List (Tree L)) (sims : List (Sim E)) : Prop :=
  ts.length = sims.length ∧ ∀ (j : Nat) (t : Tree L) (sim : Sim E), ts[j]? = some t →
    sims[j]? = some sim → ∃ k, Tree.core t = some k ∧
      Eqns k sim.challenge sim.responses sim.commitment ∧
      ∃ ρ : Key → Val E, Agree σ k sim.responses ρ

/-- A prover whose leaves are honest for the values `X` (and, below or-provers, some values of their
own) and whose simulated clauses carry valid transcripts. -/
inductive Honest (HL : P → (Key → Int) → Prop) (σ : Store) : PTree E L P → (Key → Int) → Prop
  | leaf (p : P) (X : Key → Int) (h : HL p X) : Honest HL σ (.leaf p) X
  | and (s : Bool) (subs : List (PTree E L P)) (X : Key → Int)
      (h : ∀ p ∈ subs, Honest HL σ p X) : Honest HL σ (.and s subs) X
  | or (s : Bool) (idx : Nat) (stmts : List (Tree L)) (sub : PTree E L P) (sims : List (Sim E))
      (X X' : Key → Int) (hidx : idx < stmts.length) (hsims : SimsOK σ (stmts.eraseIdx idx) sims)
      (h : Honest HL σ sub X') : Honest HL σ (.or s idx stmts sub sims) X

theorem coreL_insertIdx : ∀ (ts : List (Tree L)) (i : Nat) (t : Tree L) (ks : List (Core E)),
    i ≤ ts.length → Tree.coreL (ts.insertIdx i t) = some ks →
    ∃ k0 ks', Tree.core t = some k0 ∧ Tree.coreL ts = some ks' ∧ ks = ks'.insertIdx i k0
  | ts, 0, t, ks, _, h => by
    simp only [List.insertIdx_zero] at h
    obtain ⟨a, as, h1, h2, rfl⟩ := Tree.coreL_cons.mp h
    exact ⟨a, as, h1, h2, by simp⟩
  | [], i + 1, t, ks, h, _ => by simp at h
  | u :: ts, i + 1, t, ks, hi, h => by
    simp only [List.insertIdx_succ_cons] at h
    obtain ⟨a, as, h1, h2, rfl⟩ := Tree.coreL_cons.mp h
    obtain ⟨k0, ks', g1, g2, rfl⟩ := coreL_insertIdx ts i t as (by simpa using hi) h2
    exact ⟨k0, a :: ks', g1, Tree.coreL_cons.mpr ⟨a, ks', h1, g2, rfl⟩, by simp⟩

theorem stmtOfL_eq (ps : List (PTree E L P)) : PTree.stmtOfL ps = ps.map PTree.stmtOf := by
  induction ps with
  | nil => rfl
  | cons p ps ih => simp [PTree.stmtOfL, ih]

/-- **Commitment law.** -/
theorem commit_law (HL : P → (Key → Int) → Prop) (σ : Store)
    (hleaf : ∀ (p : P) (X : Key → Int) (k : Core E), HL p X →
      StmtView.core (ProverOps.stmtOf p) = some k → WellFormed k →
      ∀ (w w' : World) (d : Option (Dict Int)) (com : Val E) (p' : P),
      (∀ d0, d = some d0 → d0.Uniq σ) → w.store = σ →
      ProverOps.internalCommit p d w = .ok ((com, p'), w') →
      w'.store = σ ∧ ProverOps.stmtOf p' = ProverOps.stmtOf p ∧
        CommitLaw σ X k d com (ProverOps.computeResponse p')) :
    ∀ (p : PTree E L P) (X : Key → Int) (k : Core E), Honest HL σ p X →
      Tree.core (PTree.stmtOf p) = some k → WellFormed k →
      ∀ (w w' : World) (d : Option (Dict Int)) (com : Val E) (p' : PTree E L P),
      (∀ d0, d = some d0 → d0.Uniq σ) → w.store = σ →
      PTree.internalCommit p d w = .ok ((com, p'), w') →
      w'.store = σ ∧ PTree.stmtOf p' = PTree.stmtOf p ∧
        CommitLaw σ X k d com (PTree.computeResponse p') := by
  intro p
  induction p using PTree.ind with
  | leaf p =>
    intro X k hh hk hwf w w' d com p' hu hw h
    cases hh with
    | leaf _ _ hp =>
    simp only [PTree.stmtOf, Tree.core] at hk
    simp only [PTree.internalCommit] at h
    obtain ⟨⟨v, q⟩, w1, h1, h⟩ := pm_bind.mp h
    rw [pm_pure_iff, Prod.mk.injEq, Prod.mk.injEq] at h
    obtain ⟨⟨hcom, hp'⟩, hw'⟩ := h
    subst hw'; subst hp'; subst hcom
    obtain ⟨e1, e2, e3⟩ := hleaf p X k hp hk hwf w w1 d v q hu hw h1
    refine ⟨e1, by simp only [PTree.stmtOf, e2], ?_⟩
    have : (PTree.computeResponse (.leaf q : PTree E L P)) = ProverOps.computeResponse q := by
      funext c; simp only [PTree.computeResponse]
    rw [this]; exact e3
  | and s subs ih =>
    intro X k hh hk hwf w w' d com p' hu hw h
    cases hh with
    | and _ _ _ hsubs =>
    have hvars := Tree.core_vars _ k hk
    have hbases := Tree.core_bases _ k hk
    rw [secretVars_core] at hvars
    rw [bases_core] at hbases
    have hvgo := validateGroupOrders_cases σ _ k hk hwf
    simp only [PTree.stmtOf] at hk hvars hbases hvgo
    have hk0 := hk
    simp only [Tree.core, Option.map_eq_some_iff] at hk
    obtain ⟨ks, hks, hkeq⟩ := hk
    have hwf' : ∀ k ∈ ks, WellFormed k := by
      rw [← hkeq] at hwf; exact wellFormedL_iff.mp hwf.2
    -- loop
    have loop : ∀ (ps : List (PTree E L P)) (ks : List (Core E)), (∀ p ∈ ps, p ∈ subs) →
        Tree.coreL (PTree.stmtOfL ps) = some ks → (∀ k ∈ ks, WellFormed k) →
        ∀ (d : Dict Int) (w w' : World) (coms : List (Val E)) (ps' : List (PTree E L P)),
        d.Uniq σ → w.store = σ → PTree.internalCommitL ps d w = .ok ((coms, ps'), w') →
        w'.store = σ ∧ PTree.stmtOfL ps' = PTree.stmtOfL ps ∧ coms.length = ks.length ∧
          ps'.length = ks.length ∧ ∀ (i : Nat) (k : Core E) (com : Val E) (p : PTree E L P),
            ks[i]? = some k → coms[i]? = some com → ps'[i]? = some p →
            CommitLaw σ X k (some d) com (PTree.computeResponse p) := by
      intro ps
      induction ps with
      | nil =>
        intro ks _ hks _ d w w' coms ps' _ hw h
        simp only [PTree.stmtOfL, Tree.coreL, Option.some.injEq] at hks
        simp only [PTree.internalCommitL, pm_pure_iff, Prod.mk.injEq] at h
        obtain ⟨⟨rfl, rfl⟩, rfl⟩ := h
        subst hks
        exact ⟨hw, rfl, rfl, rfl, by simp⟩
      | cons p ps ihl =>
        intro ks hm hks hwf d w w' coms ps' hu hw h
        simp only [PTree.stmtOfL] at hks
        obtain ⟨a, as, ha, has, rfl⟩ := Tree.coreL_cons.mp hks
        simp only [PTree.internalCommitL] at h
        obtain ⟨⟨v, p1⟩, w1, h1, h⟩ := pm_bind.mp h
        obtain ⟨⟨vs, ps1⟩, w2, h2, h⟩ := pm_bind.mp h
        rw [pm_pure_iff, Prod.mk.injEq, Prod.mk.injEq] at h
        obtain ⟨⟨hc, hp⟩, hw'⟩ := h
        obtain ⟨e1, e2, e3⟩ := ih p (hm p (by simp)) X a (hsubs p (hm p (by simp))) ha
          (hwf a (by simp)) w w1 (some d) v p1 (fun d0 h0 => by cases h0; exact hu) hw h1
        obtain ⟨f1, f2, f3, f4, f5⟩ := ihl as (fun p hp => hm p (by simp [hp])) has
          (fun k hk => hwf k (by simp [hk])) d w1 w2 vs ps1 hu e1 h2
        subst hw'; subst hc; subst hp
        refine ⟨f1, by simp only [PTree.stmtOfL, e2, f2], by simp [f3], by simp [f4], ?_⟩
        intro i k com p hk hcom hp
        cases i with
        | zero => simp at hk hcom hp; subst hk; subst hcom; subst hp; exact e3
        | succ i => exact f5 i k com p (by simpa using hk) (by simpa using hcom) (by simpa using hp)
    -- responses
    have resp : ∀ (ps : List (PTree E L P)) (ks : List (Core E)) (coms : List (Val E)) (d : Dict Int),
        ps.length = ks.length → coms.length = ks.length →
        (∀ (i : Nat) (k : Core E) (com : Val E) (p : PTree E L P), ks[i]? = some k →
          coms[i]? = some com → ps[i]? = some p →
          CommitLaw σ X k (some d) com (PTree.computeResponse p)) →
        (∀ k ∈ ks, ∀ x ∈ secrets k, ∃ v, Dict.get? σ d x = some v) →
        ∀ q, (∀ k ∈ ks, OrdersOK σ q k) → ∀ c w, w.store = σ →
        ∃ rs w', PTree.computeResponseL ps c w = .ok (rs, w') ∧ w'.store = σ ∧
          rs.length = ks.length ∧ ∀ (i : Nat) (k : Core E) (com r : Val E), ks[i]? = some k →
            coms[i]? = some com → rs[i]? = some r → Eqns k c r com ∧
            Agree σ k r (fun κ => .int ((X κ * c + Dict.fn σ 0 d κ) % (q κ : Int))) := by
      intro ps
      induction ps with
      | nil =>
        intro ks coms d hl _ _ _ q _ c w hw
        simp only [List.length_nil] at hl
        have : ks = [] := List.length_eq_zero_iff.mp hl.symm
        subst this
        exact ⟨[], w, by simp only [PTree.computeResponseL]; rfl, hw, rfl, by simp⟩
      | cons p ps ihl =>
        intro ks coms d hl hl2 hlaw hd q hq c w hw
        cases ks with
        | nil => simp at hl
        | cons k ks =>
          cases coms with
          | nil => simp at hl2
          | cons com coms =>
            obtain ⟨_, ρ, g1, g2⟩ := hlaw 0 k com p (by simp) (by simp) (by simp)
            obtain ⟨r, w1, a1, a2, a3, a4⟩ := g2 q (hq k (by simp)) c w hw
            obtain ⟨rs, w2, b1, b2, b3, b4⟩ := ihl ks coms d (by simpa using hl) (by simpa using hl2)
              (fun i k' com' p' h1 h2 h3 => hlaw (i + 1) k' com' p' (by simpa using h1)
                (by simpa using h2) (by simpa using h3))
              (fun k' hk' => hd k' (by simp [hk'])) q (fun k' hk' => hq k' (by simp [hk'])) c w1 a2
            refine ⟨r :: rs, w2, ?_, b2, by simp [b3], ?_⟩
            · simp only [PTree.computeResponseL]
              rw [pm_bind_eq a1, pm_bind_eq b1]; rfl
            · intro i k' com' r' h1 h2 h3
              cases i with
              | zero =>
                simp at h1 h2 h3
                subst h1; subst h2; subst h3
                refine ⟨a3, agree_congr a4 _ fun x hx => ?_⟩
                obtain ⟨v, hv⟩ := hd k (by simp) x hx
                rw [g1 d rfl x hx v hv, ← Dict.get?_fn hv]
              | succ i => exact b4 i k' com' r' (by simpa using h1) (by simpa using h2) (by simpa using h3)
    simp only [PTree.internalCommit] at h
    rw [pm_getStore_bind, hw] at h
    obtain ⟨_, hval, h⟩ := pm_liftE_bind_iff.mp h
    have hord : SameOrders σ k := by
      simp only [Tree.validateComposition] at hval
      obtain ⟨_, hv, _⟩ := bind_ok_iff.mp hval
      rcases hvgo with ⟨_, h2⟩ | ⟨h1, _⟩
      · exact h2
      · rw [h1] at hv; cases hv
    obtain ⟨d', w1, h1, h⟩ := pm_bind.mp h
    obtain ⟨⟨vs, ps1⟩, w2, h2, h⟩ := pm_bind.mp h
    rw [pm_pure_iff, Prod.mk.injEq, Prod.mk.injEq] at h
    obtain ⟨⟨hc, hp⟩, hw'⟩ := h
    unfold Tree.updateRandomizers at h1
    rw [hvars] at h1
    obtain ⟨e1, e2, e3⟩ := updateRandomizersWith_ok (fun w' d' h =>
      Tree.getRandomizers_ok hvars hbases (le_of_eq (wf_length _ hwf)) h) (by rw [hw]; exact hu) h1
    rw [hw] at e1 e2 e3
    obtain ⟨f1, f2, f3, f4, f5⟩ := loop subs ks (fun _ h => h) hks hwf' d' w1 w2 vs ps1 e2.1 e1 h2
    subst hw'; subst hc; subst hp
    refine ⟨f1, by simp only [PTree.stmtOf, f2], sameOrders_q hord, Dict.fn σ 0 d', ?_, ?_⟩
    · intro d0 hd0 x _ v hv
      exact (Dict.get?_fn (e3 d0 hd0 x v hv)).symm
    · intro q hq c w3 hw3
      rw [← hkeq] at hq ⊢
      have hd : ∀ k ∈ ks, ∀ x ∈ secrets k, ∃ v, Dict.get? σ d' x = some v := by
        intro k' hk' x hx
        refine e2.2 x ?_
        rw [← hkeq]
        simp only [coreVars, secrets]; exact mem_secretsL.mpr ⟨k', hk', hx⟩
      obtain ⟨rs, w4, a1, a2, a3, a4⟩ := resp ps1 ks vs d' f4 f3 f5 hd q (fun k' hk' x b hx =>
        hq x b (by simp only [terms]; exact mem_termsL.mpr ⟨k', hk', hx⟩)) c w3 hw3
      have hget : ∀ i, i < ks.length → (Val.list rs).index i = .ok (rs.getD i .none) := by
        intro i hi
        rw [index_list]
        have : i < rs.length := by omega
        simp [this]
      have hrs : ∀ (i : Nat) (k' : Core E), ks[i]? = some k' → rs[i]? = some (rs.getD i .none) := by
        intro i k' hk'
        have : i < rs.length := by rw [a3]; exact (List.getElem?_eq_some_iff.mp hk').1
        simp [this]
      refine ⟨.list rs, w4, ?_, a2, ?_, ?_⟩
      · simp only [PTree.computeResponse]
        rw [pm_bind_eq a1]; rfl
      · exact Eqns.all _ _ _ _ _ (fun i => rs.getD i .none) f3 hget
          (fun i t com ht hcom => (a4 i t com _ ht hcom (hrs i t ht)).1)
      · refine Agree.all _ _ _ _ (fun i => rs.getD i .none) hget fun i t ht => ?_
        have hi : i < vs.length := by rw [f3]; exact (List.getElem?_eq_some_iff.mp ht).1
        exact (a4 i t _ _ ht (List.getElem?_eq_getElem hi) (hrs i t ht)).2
  | or s idx stmts sub sims ih =>
    intro X k hh hk hwf w w' d com p' hu hw h
    cases hh with
    | or _ _ _ _ _ _ X' hidx hsims hsub =>
    have hvgo := validateGroupOrders_cases σ _ k hk hwf
    simp only [PTree.stmtOf] at hk hvgo
    simp only [Tree.core, Option.map_eq_some_iff] at hk
    obtain ⟨ks, hks, hkeq⟩ := hk
    rw [set_eq_insertIdx _ _ _ hidx] at hks
    have hle : idx ≤ (stmts.eraseIdx idx).length := by
      rw [List.length_eraseIdx_of_lt hidx]; omega
    obtain ⟨k0, ks', hk0, hks', rfl⟩ := coreL_insertIdx _ _ _ _ hle hks
    obtain ⟨hslen, hsim⟩ := hsims
    obtain ⟨hkl, hkget⟩ := coreL_get hks'
    have hidx' : idx ≤ sims.length := by omega
    have hidxk : idx ≤ ks'.length := by omega
    have hlen : stmts.length = sims.length + 1 := by
      rw [List.length_eraseIdx_of_lt hidx] at hslen; omega
    have hwf0 : WellFormed k0 := by
      rw [← hkeq] at hwf
      exact wellFormedL_iff.mp hwf.2 k0 (by rw [List.mem_insertIdx hidxk]; exact .inl rfl)
    simp only [PTree.internalCommit] at h
    rw [pm_getStore_bind, hw] at h
    obtain ⟨_, hval, h⟩ := pm_liftE_bind_iff.mp h
    have hord : SameOrders σ k := by
      simp only [Tree.validateComposition] at hval
      rcases hvgo with ⟨_, h2⟩ | ⟨h1, _⟩
      · exact h2
      · rw [h1] at hval; cases hval
    obtain ⟨⟨v, p1⟩, w1, h1, h⟩ := pm_bind.mp h
    obtain ⟨vs, hvs, h⟩ := pm_liftE_bind_iff.mp h
    rw [pm_pure_iff, Prod.mk.injEq, Prod.mk.injEq] at h
    obtain ⟨⟨hc, hp⟩, hw'⟩ := h
    have hm : (sims.map Sim.commitment).length = sims.length := by simp
    rw [hlen, ← hm, orSlots_eq _ _ _ (by rw [hm]; exact hidx')] at hvs
    injection hvs with hvs
    obtain ⟨e1, e2, ⟨q0, hq0⟩, ρ0, _, e3⟩ := ih X' k0 hsub hk0 hwf0 w w1 none v p1 (by simp) hw h1
    subst hw'; subst hc; subst hp; subst hvs
    refine ⟨e1, by simp only [PTree.stmtOf, e2], sameOrders_q hord, ?_⟩
    refine ⟨fun κ => (d.map fun d0 => Dict.fn σ 0 d0 κ).getD 0, ?_, ?_⟩
    · intro d0 hd0 x _ v hv
      simp only [hd0, Option.map_some, Option.getD_some]
      exact (Dict.get?_fn hv).symm
    · intro q hq c w3 hw3
      rw [← hkeq] at hq ⊢
      obtain ⟨r, w4, a1, a2, a3, a4⟩ := e3 q0 hq0
        (findResidualChallenge (sims.map Sim.challenge) c challengeLength) w3 hw3
      have hmc : (sims.map Sim.challenge).length = sims.length := by simp
      have hmr : (sims.map Sim.responses).length = sims.length := by simp
      have hrl : ((sims.map Sim.responses).insertIdx idx r).length = (ks'.insertIdx idx k0).length := by
        rw [List.length_insertIdx_of_le_length (by rw [hmr]; exact hidx'),
          List.length_insertIdx_of_le_length hidxk]; omega
      have hget : ∀ i, i < (ks'.insertIdx idx k0).length →
          (Val.list ((sims.map Sim.responses).insertIdx idx r)).index i
            = .ok (((sims.map Sim.responses).insertIdx idx r).getD i .none) := by
        intro i hi
        rw [index_list]
        rw [← hrl] at hi
        simp [hi]
      -- per clause facts
      have clause : ∀ (i : Nat) (kk : Core E) (x : Int × Val E × Val E),
          (ks'.insertIdx idx k0)[i]? = some kk →
          ((sims.map fun s => (s.challenge, s.responses, s.commitment)).insertIdx idx
            (findResidualChallenge (sims.map Sim.challenge) c challengeLength, r, v))[i]? = some x →
          Eqns kk x.1 x.2.1 x.2.2 ∧ ∃ ρ : Key → Val E, Agree σ kk x.2.1 ρ := by
        refine getElem?_insertIdx_cases (P := fun _ (kk : Core E) (x : Int × Val E × Val E) => Eqns kk x.1 x.2.1 x.2.2 ∧
          ∃ ρ : Key → Val E, Agree σ kk x.2.1 ρ) (by simp; omega) hidxk ⟨a3, _, a4⟩ ?_
        intro j kk x hkk hx _
        simp only [List.getElem?_map, Option.map_eq_some_iff] at hx
        obtain ⟨sj, hsj, rfl⟩ := hx
        obtain ⟨t, ht, htk⟩ := hkget j kk hkk
        obtain ⟨k', hk', g1, g2⟩ := hsim j t sj ht hsj
        rw [htk] at hk'; cases hk'
        exact ⟨g1, g2⟩
      have hx : ∀ (i : Nat) (a : Int) (b e : Val E),
          ((sims.map Sim.challenge).insertIdx idx
            (findResidualChallenge (sims.map Sim.challenge) c challengeLength))[i]? = some a →
          ((sims.map Sim.responses).insertIdx idx r)[i]? = some b →
          ((sims.map Sim.commitment).insertIdx idx v)[i]? = some e →
          ((sims.map fun s => (s.challenge, s.responses, s.commitment)).insertIdx idx
            (findResidualChallenge (sims.map Sim.challenge) c challengeLength, r, v))[i]?
              = some (a, b, e) := by
        intro i a b e h1 h2 h3
        have m1 : (sims.map Sim.challenge).insertIdx idx
            (findResidualChallenge (sims.map Sim.challenge) c challengeLength)
            = ((sims.map fun s => (s.challenge, s.responses, s.commitment)).insertIdx idx
            (findResidualChallenge (sims.map Sim.challenge) c challengeLength, r, v)).map (·.1) := by
          rw [map_insertIdx]; simp [Function.comp_def]
        have m2 : (sims.map Sim.responses).insertIdx idx r
            = ((sims.map fun s => (s.challenge, s.responses, s.commitment)).insertIdx idx
            (findResidualChallenge (sims.map Sim.challenge) c challengeLength, r, v)).map (·.2.1) := by
          rw [map_insertIdx]; simp [Function.comp_def]
        have m3 : (sims.map Sim.commitment).insertIdx idx v
            = ((sims.map fun s => (s.challenge, s.responses, s.commitment)).insertIdx idx
            (findResidualChallenge (sims.map Sim.challenge) c challengeLength, r, v)).map (·.2.2) := by
          rw [map_insertIdx]; simp [Function.comp_def]
        rw [m1] at h1; rw [m2] at h2; rw [m3] at h3
        simp only [List.getElem?_map, Option.map_eq_some_iff] at h1 h2 h3
        obtain ⟨y1, hy1, rfl⟩ := h1
        obtain ⟨y2, hy2, rfl⟩ := h2
        obtain ⟨y3, hy3, rfl⟩ := h3
        rw [hy1] at hy2 hy3; cases hy2; cases hy3
        rw [hy1]
      have hgetL : ∀ {α : Type} (l : List α) (i : Nat), i < l.length → ∃ a, l[i]? = some a :=
        fun l i hi => ⟨l[i], List.getElem?_eq_getElem hi⟩
      have hclen : ((sims.map Sim.challenge).insertIdx idx
          (findResidualChallenge (sims.map Sim.challenge) c challengeLength)).length
            = (ks'.insertIdx idx k0).length := by
        rw [List.length_insertIdx_of_le_length (by rw [hmc]; exact hidx'),
          List.length_insertIdx_of_le_length hidxk]; omega
      have hvlen : ((sims.map Sim.commitment).insertIdx idx v).length
            = (ks'.insertIdx idx k0).length := by
        rw [List.length_insertIdx_of_le_length (by rw [hm]; exact hidx'),
          List.length_insertIdx_of_le_length hidxk]; omega
      refine ⟨.tuple [.list (((sims.map Sim.challenge).insertIdx idx
        (findResidualChallenge (sims.map Sim.challenge) c challengeLength)).map .int),
        .list ((sims.map Sim.responses).insertIdx idx r)], w4, ?_, a2, ?_, ?_⟩
      · simp only [PTree.computeResponse]
        rw [pm_bind_eq a1, hlen]
        conv_lhs => rw [← hmc, orSlots_eq _ _ _ (by rw [hmc]; exact hidx')]
        rw [pm_liftE_bind, hmc, ← hmr, orSlots_eq _ _ _ (by rw [hmr]; exact hidx')]
        rw [pm_liftE_bind]
        rfl
      · refine Eqns.any _ _ _ _ _ _ _
          (fun i => ((sims.map Sim.responses).insertIdx idx r).getD i .none) rfl rfl ?_ hvlen
          (le_of_eq hclen.symm) hget ?_
        · rw [sum_insertIdx _ _ _ (by rw [hmc]; exact hidx')]
          have h3 := findResidual_eq (sims.map Sim.challenge) c challengeLength
          simp only [challengeLength] at h3 ⊢
          rw [h3]; omega
        · intro i t com ci ht hcom hci
          have hi : i < ((sims.map Sim.responses).insertIdx idx r).length := by
            rw [hrl]; exact (List.getElem?_eq_some_iff.mp ht).1
          obtain ⟨ri, hri⟩ := hgetL _ i hi
          have := (clause i t _ ht (hx i ci ri com hci hri hcom)).1
          simpa [hri] using this
      · have hch : ∀ i, ∃ ρ : Key → Val E, ∀ t : Core E, (ks'.insertIdx idx k0)[i]? = some t →
            Agree σ t (((sims.map Sim.responses).insertIdx idx r).getD i .none) ρ := by
          intro i
          by_cases hi : i < (ks'.insertIdx idx k0).length
          · obtain ⟨ri, hri⟩ := hgetL _ i (by rw [hrl]; exact hi)
            obtain ⟨ci, hci⟩ := hgetL _ i (by rw [hclen]; exact hi)
            obtain ⟨vi, hvi⟩ := hgetL _ i (by rw [hvlen]; exact hi)
            obtain ⟨ρ, hρ⟩ := (clause i _ _ (List.getElem?_eq_getElem hi) (hx i ci ri vi hci hri hvi)).2
            refine ⟨ρ, fun t ht => ?_⟩
            rw [List.getElem?_eq_getElem hi] at ht; cases ht
            simpa [hri] using hρ
          · exact ⟨fun _ => .none, fun t ht => absurd (List.getElem?_eq_some_iff.mp ht).1 hi⟩
        choose ρi hρi using hch
        exact Agree.any _ _ _ _ _ _ ρi (fun _ => rfl) hget hρi

end

/-- Commitment law for provers of plain statements. -/
theorem commit_core (σ : Store) (p : CoreProver E) (X : Key → Int) (k : Core E)
    (hp : Honest (HonestRep σ) σ p X) (hk : Tree.core (PTree.stmtOf p) = some k) (hwf : WellFormed k)
    {w w' : World} {d : Option (Dict Int)} {com : Val E} {p' : CoreProver E}
    (hu : ∀ d0, d = some d0 → d0.Uniq σ) (hw : w.store = σ)
    (h : PTree.internalCommit p d w = .ok ((com, p'), w')) :
    w'.store = σ ∧ PTree.stmtOf p' = PTree.stmtOf p ∧
      CommitLaw σ X k d com (PTree.computeResponse p') := by
  refine commit_law (HonestRep σ) σ ?_ p X k hp hk hwf w w' d com p' hu hw h
  intro p X k hp hk hwf w w' d com p' hu hw h
  simp only [ProverOps.stmtOf, StmtView.core, Option.some.injEq] at hk
  subst hk
  obtain ⟨e1, e2, e3⟩ := commit_dlrep p hp (by simpa [WellFormed, DLRep.norm] using hwf) hu hw h
  refine ⟨e1, e2, ?_⟩
  obtain ⟨⟨q, hq⟩, ρ, h1, h2⟩ := e3
  refine ⟨⟨q, hq⟩, ρ, h1, fun q hq c w hw => ?_⟩
  obtain ⟨r, w', g1, g2, g3, g4⟩ := h2 q hq c w hw
  refine ⟨r, w', g1, g2, eqns_norm.mpr g3, ?_⟩
  cases g4 with
  | rep s r ρ h => exact .rep _ _ _ h

end Zksk
