import Verif.Lemmas.TwinSim

/-! Two provers of the same statement with different values of the secrets: matching randomizers lead to the
same commitments and responses. -/

set_option linter.unusedSectionVars false

namespace Zksk.Peer

open Spec

variable {E : Type} [AddCommGroup E] [DecidableEq E]

/-! ### Related provers -/

/-- Provers of statement `t` that prove the same clauses, with values `X` and `X'`, and carry the same
simulations of the others. -/
inductive Mates (σ : Store) (X : Key → Int) (σ' : Store) (X' : Key → Int) :
    Core E → CoreProver E → CoreProver E → Prop
  | leaf (s : DLRep E) (p p' : DLRepProver E) (h : FitRep σ X p) (h' : FitRep σ' X' p')
      (e : p.stmt.norm = s.norm) (e' : p'.stmt.norm = s.norm) : Mates σ X σ' X' (.leaf s) (.leaf p) (.leaf p')
  | and (b b1 b2 : Bool) (ts : List (Core E)) (ps ps' : List (CoreProver E)) (l : ps.length = ts.length)
      (l' : ps'.length = ts.length)
      (h : ∀ (i : Nat) t p p', ts[i]? = some t → ps[i]? = some p → ps'[i]? = some p' → Mates σ X σ' X' t p p') :
      Mates σ X σ' X' (.and b ts) (.and b1 ps) (.and b2 ps')
  | or (b b1 b2 : Bool) (i : Nat) (ts us us' : List (Core E)) (t : Core E) (p p' : CoreProver E)
      (sims : List (Sim E)) (e : Tree.blankL us = Tree.blankL ts) (e' : Tree.blankL us' = Tree.blankL ts)
      (hi : ts[i]? = some t) (l : sims.length + 1 = ts.length) (h : Mates σ X σ' X' t p p') :
      Mates σ X σ' X' (.or b ts) (.or b1 i us p sims) (.or b2 i us' p' sims)

variable {M : Nat} {σ σ' : Store} {X X' : Key → Int} {V : List Sec}

theorem blankL_set {us ts : List (Core E)} {u t : Core E} {i : Nat} (h1 : Tree.blankL us = Tree.blankL ts)
    (hi : ts[i]? = some t) (h2 : Tree.blank u = Tree.blank t) : Tree.blankL (us.set i u) = Tree.blankL ts := by
  rw [Tree.blankL_eq] at h1 ⊢
  rw [List.map_set, h1, h2, Tree.blankL_eq]
  refine List.ext_getElem? fun j => ?_
  rw [List.getElem?_set]
  split
  · rename_i hj
    subst hj
    simp only [List.length_map, List.getElem?_map, hi, Option.map_some]
    rw [if_pos (List.getElem?_eq_some_iff.mp hi).1]
  · rfl

theorem mates_blank {t : Core E} {p p' : CoreProver E} (h : Mates σ X σ' X' t p p') :
    Tree.blank (PTree.stmtOf p) = Tree.blank t ∧ Tree.blank (PTree.stmtOf p') = Tree.blank t := by
  induction h with
  | leaf s p p' _ _ e e' => exact ⟨congrArg Tree.leaf e, congrArg Tree.leaf e'⟩
  | and b b1 b2 ts ps ps' l l' _ ih =>
    simp only [PTree.stmtOf, Tree.blank, Tree.and.injEq, true_and]
    rw [Tree.blankL_eq, Tree.blankL_eq, Tree.blankL_eq, stmtOfL_eq, stmtOfL_eq]
    constructor
    · refine List.ext_getElem? fun i => ?_
      simp only [List.getElem?_map, Option.map_map]
      by_cases hi : i < ts.length
      · rw [List.getElem?_eq_getElem hi, List.getElem?_eq_getElem (l ▸ hi)]
        simp only [Option.map_some, Function.comp, Option.some.injEq]
        exact (ih i _ _ _ (List.getElem?_eq_getElem hi) (List.getElem?_eq_getElem (l ▸ hi))
          (List.getElem?_eq_getElem (l' ▸ hi))).1
      · rw [List.getElem?_eq_none (by omega), List.getElem?_eq_none (by omega)]; rfl
    · refine List.ext_getElem? fun i => ?_
      simp only [List.getElem?_map, Option.map_map]
      by_cases hi : i < ts.length
      · rw [List.getElem?_eq_getElem hi, List.getElem?_eq_getElem (l' ▸ hi)]
        simp only [Option.map_some, Function.comp, Option.some.injEq]
        exact (ih i _ _ _ (List.getElem?_eq_getElem hi) (List.getElem?_eq_getElem (l ▸ hi))
          (List.getElem?_eq_getElem (l' ▸ hi))).2
      · rw [List.getElem?_eq_none (by omega), List.getElem?_eq_none (by omega)]; rfl
  | or b b1 b2 i ts us us' t p p' sims e e' hi l _ ih =>
    exact ⟨congrArg (Tree.or false) (blankL_set e hi ih.1), congrArg (Tree.or false) (blankL_set e' hi ih.2)⟩

/-! ### Shifted randomizers -/

/-- How far the randomizer of a secret is shifted when the challenge is `c`. -/
def gap (σ : Store) (X : Key → Int) (σ' : Store) (X' : Key → Int) (c : Int) (x : Sec) : Int :=
  (X (σ.key x) - X' (σ'.key x)) * c

/-- Dictionaries of randomizers that lead to the same responses to `c`. -/
def Shifted (σ : Store) (X : Key → Int) (σ' : Store) (X' : Key → Int) (c : Int) (t : Core E)
    (D D' : Dict Int) : Prop :=
  D.Uniq σ ∧ D'.Uniq σ' ∧ ∀ x ∈ secrets t, ∃ v v', Dict.get? σ D x = some v ∧ Dict.get? σ' D' x = some v' ∧
    ∀ b, (x, b) ∈ terms t → v' % (b.grp.order : Int) = (v + gap σ X σ' X' c x) % (b.grp.order : Int)

theorem drawDict_shift {M : Nat} {σ σ' : Store} (hM : M ≠ 0) (f : Sec → Int) : ∀ (D : Dict Nat),
    (∀ e ∈ D, e.2 ≠ 0) → (∀ e ∈ D, e.2 ∣ M) →
    Twin M (fun a τ b τ' => (τ = σ ∧ τ' = σ') ∧ ∀ x,
        (∀ e ∈ D, (σ'.key e.1 = σ'.key x ↔ σ.key e.1 = σ.key x)) → ∀ v, Dict.get? σ a x = some v →
        ∃ e ∈ D, σ.key e.1 = σ.key x ∧ Dict.get? σ' b x = some ((v + f e.1) % (e.2 : Int)))
      (starting σ (Tree.drawDict D)) (starting σ' (Tree.drawDict D))
  | [], _, _ => .pure ⟨⟨rfl, rfl⟩, by simp [Dict.get?]⟩
  | (u, o) :: D, h, hd => by
    simp only [Tree.drawDict]
    refine .bind (Twin.drawShift (h (u, o) (by simp)) hM (hd (u, o) (by simp)) (f u)) ?_
    rintro k τ k' τ' ⟨rfl, rfl, rfl⟩
    refine .bind (drawDict_shift hM f D (fun e he => h e (by simp [he])) fun e he => hd e (by simp [he])) ?_
    rintro a τ b τ' ⟨⟨rfl, rfl⟩, hk⟩
    refine .pure ⟨⟨rfl, rfl⟩, fun x hx v hv => ?_⟩
    have hkey := hx (u, o) (by simp)
    simp only at hkey
    simp only [Dict.get?] at hv ⊢
    by_cases hu : τ.key u = τ.key x
    · rw [if_pos hu] at hv
      injection hv with hv
      subst hv
      exact ⟨(u, o), by simp, hu, by rw [if_pos (hkey.mpr hu)]⟩
    · rw [if_neg hu] at hv
      obtain ⟨e, he, h1, h2⟩ := hk x (fun e he => hx e (by simp [he])) v hv
      refine ⟨e, by simp [he], h1, ?_⟩
      rw [if_neg fun e => hu (hkey.mp e)]
      exact h2

theorem shifted_of_draws {t : Core E} (hg : Good SolidRep t) (ho : SameOrders σ t) (hV : SameKeys σ σ' V)
    (hsub : ∀ x ∈ secrets t, x ∈ V) {c : Int} {D D' : Dict Int} (hu : D.Uniq σ) (hu' : D'.Uniq σ')
    (hcov : ∀ x ∈ secrets t, ∃ v, Dict.get? σ D x = some v)
    (h : ∀ x, (∀ e ∈ table σ t, (σ'.key e.1 = σ'.key x ↔ σ.key e.1 = σ.key x)) →
      ∀ v, Dict.get? σ D x = some v → ∃ e ∈ table σ t, σ.key e.1 = σ.key x ∧
        Dict.get? σ' D' x = some ((v + gap σ X σ' X' c e.1) % (e.2 : Int))) :
    Shifted σ X σ' X' c t D D' := by
  refine ⟨hu, hu', fun x hx => ?_⟩
  obtain ⟨v, hv⟩ := hcov x hx
  have hk : ∀ e ∈ table σ t, (σ'.key e.1 = σ'.key x ↔ σ.key e.1 = σ.key x) :=
    fun e he => hV e.1 (hsub _ (table_keys e he)) x (hsub x hx)
  obtain ⟨e, he, h1, h2⟩ := h x hk v hv
  refine ⟨v, _, hv, h2, fun b hb => ?_⟩
  obtain ⟨q, hq⟩ := sameOrders_q ho
  have h3 := table_orders hg hq e he
  rw [h3, h1, hq x b hb, Int.emod_emod_of_dvd _ (dvd_refl _)]
  unfold gap
  rw [h1, (hk e he).mpr h1]

theorem sameOrders_leaf {s : DLRep E} (hs : SolidRep s) (τ : Store) : SameOrders τ (.leaf s) := by
  intro x b y c hx hy _
  simp only [terms] at hx hy
  rw [hs.2.2.1 b (List.of_mem_zip hx).2, hs.2.2.1 c (List.of_mem_zip hy).2]

theorem secret_term {t : Core E} (hw : WellFormed t) {x : Sec} (hx : x ∈ secrets t) :
    ∃ b, (x, b) ∈ terms t := by
  obtain ⟨i, hi, rfl⟩ := List.getElem_of_mem hx
  have hl := wf_length t hw
  rw [wf_terms t hw]
  refine ⟨(coreBases t)[i]'(hl ▸ hi), ?_⟩
  rw [← List.getElem_zip (h := by rw [List.length_zip]; omega)]
  exact List.getElem_mem _

theorem table_dvd {t : Core E} (hg : Good SolidRep t) (ho : SameOrders σ t)
    (hM : ∀ x b, (x, b) ∈ terms t → b.grp.order ∣ M) : ∀ e ∈ table σ t, e.2 ∣ M := by
  intro e he
  obtain ⟨q, hq⟩ := sameOrders_q ho
  have hx := table_keys e he
  obtain ⟨b, hb⟩ := secret_term (wf_of_good hg) hx
  rw [table_orders hg hq e he, hq e.1 b hb]
  exact hM _ _ hb

/-! ### Matching randomizers -/

theorem shifted_congr {c : Int} {t u : Core E} {D D' : Dict Int} (hs : ∀ x ∈ secrets u, x ∈ secrets t)
    (ht : ∀ x b, (x, b) ∈ terms u → (x, b) ∈ terms t) (h : Shifted σ X σ' X' c t D D') :
    Shifted σ X σ' X' c u D D' := by
  refine ⟨h.1, h.2.1, fun x hx => ?_⟩
  obtain ⟨v, v', h1, h2, h3⟩ := h.2.2 x (hs x hx)
  exact ⟨v, v', h1, h2, fun b hb => h3 b (ht x b hb)⟩

theorem shift_table {t : Core E} (hM : M ≠ 0) (hg : Good SolidRep t) (ho : SameOrders σ t)
    (hV : SameKeys σ σ' V) (hsub : ∀ x ∈ secrets t, x ∈ V)
    (hdvd : ∀ x b, (x, b) ∈ terms t → b.grp.order ∣ M) (c : Int) {getR getR' : PM (Dict Int)}
    (e : starting σ getR = starting σ (Tree.drawDict (table σ t)))
    (e' : starting σ' getR' = starting σ' (Tree.drawDict (table σ' t)))
    (hk : ∀ w d w', w.store = σ → getR w = .ok (d, w') → Tree.GoodDict σ (secrets t) d)
    (hk' : ∀ w d w', w.store = σ' → getR' w = .ok (d, w') → d.Uniq σ') :
    Twin M (fun a τ b τ' => (τ = σ ∧ τ' = σ') ∧ Shifted σ X σ' X' c t a b)
      (starting σ getR) (starting σ' getR') := by
  have ht : table σ' t = table σ t := table_same fun x hx y hy => hV x (hsub x hx) y (hsub y hy)
  rw [ht] at e'
  have key := drawDict_shift (σ := σ) (σ' := σ') hM (gap σ X σ' X' c) (table σ t) (table_nonzero hg)
    (table_dvd hg ho hdvd)
  rw [← e, ← e'] at key
  refine ((key.left (P := fun a _ => Tree.GoodDict σ (secrets t) a) fun r a w h => hk _ _ _ rfl h).right
    (P := fun b _ => b.Uniq σ') fun r a w h => hk' _ _ _ rfl h).mono ?_
  rintro a τ b τ' ⟨⟨⟨h1, h2⟩, h3⟩, h4⟩
  exact ⟨h1, shifted_of_draws hg ho hV hsub h3.1 h4 h3.2 h2⟩

/-- Dictionaries handed down to related provers. -/
def Handed (σ : Store) (X : Key → Int) (σ' : Store) (X' : Key → Int) (c : Int) (t : Core E) :
    Option (Dict Int) → Option (Dict Int) → Prop
  | none, none => True
  | some D, some D' => Shifted σ X σ' X' c t D D'
  | _, _ => False

theorem upd_shift {t : Core E} {vars : List Sec} {getR getR' : PM (Dict Int)} {c : Int} (hv : secrets t = vars)
    (hR : Twin M (fun a τ b τ' => (τ = σ ∧ τ' = σ') ∧ Shifted σ X σ' X' c t a b)
      (starting σ getR) (starting σ' getR')) {d d' : Option (Dict Int)} (hd : Handed σ X σ' X' c t d d') :
    Twin M (fun a τ b τ' => (τ = σ ∧ τ' = σ') ∧ Shifted σ X σ' X' c t a b)
      (starting σ (Tree.updateRandomizersWith (.ok vars) getR d))
      (starting σ' (Tree.updateRandomizersWith (.ok vars) getR' d')) := by
  subst hv
  cases d with
  | none =>
    cases d' with
    | none => exact hR
    | some _ => exact hd.elim
  | some D =>
    cases d' with
    | none => exact hd.elim
    | some D' =>
      have hd : Shifted σ X σ' X' c t D D' := hd
      refine .ends (τ := σ) (τ' := σ') ⟨⟨rfl, rfl⟩, hd⟩ (fun r => update_given ?_) fun r => update_given ?_
      · intro x hx
        obtain ⟨v, v', h1, h2, _⟩ := hd.2.2 x hx
        exact ⟨v, h1⟩
      · intro x hx
        obtain ⟨v, v', h1, h2, _⟩ := hd.2.2 x hx
        exact ⟨v', h2⟩

/-- What is needed of a statement. -/
structure Ready (M : Nat) (V : List Sec) (σ σ' : Store) (t : Core E) : Prop where
  good : Good SolidRep t
  comp : Composable σ t
  comp' : Composable σ' t
  sub : ∀ x ∈ secrets t, x ∈ V
  dvd : ∀ x b, (x, b) ∈ terms t → b.grp.order ∣ M
  tors : Torsion t

theorem ready_and {b : Bool} {ts : List (Core E)} (h : Ready M V σ σ' (.and b ts)) {t : Core E} (ht : t ∈ ts) :
    Ready M V σ σ' t := by
  obtain ⟨h1, h2, h3, h4, h5, h6⟩ := h
  cases h1 with
  | and _ _ _ h1 =>
  cases h2 with
  | and _ _ _ _ h2 =>
  cases h3 with
  | and _ _ _ _ h3 =>
  exact ⟨h1 t ht, h2 t ht, h3 t ht, fun x hx => h4 x (mem_secretsL.mpr ⟨t, ht, hx⟩),
    fun x b hx => h5 x b (mem_termsL.mpr ⟨t, ht, hx⟩), fun x b hx => h6 x b (mem_termsL.mpr ⟨t, ht, hx⟩)⟩

theorem ready_or {b : Bool} {ts : List (Core E)} (h : Ready M V σ σ' (.or b ts)) {t : Core E} (ht : t ∈ ts) :
    Ready M V σ σ' t := by
  obtain ⟨h1, h2, h3, h4, h5, h6⟩ := h
  cases h1 with
  | or _ _ _ h1 =>
  cases h2 with
  | or _ _ _ h2 =>
  cases h3 with
  | or _ _ _ h3 =>
  exact ⟨h1 t ht, h2 t ht, h3 t ht, fun x hx => h4 x (mem_secretsL.mpr ⟨t, ht, hx⟩),
    fun x b hx => h5 x b (mem_termsL.mpr ⟨t, ht, hx⟩), fun x b hx => h6 x b (mem_termsL.mpr ⟨t, ht, hx⟩)⟩

/-! ### Commitments -/

/-- The same commitment, and the same response to `c`. -/
def Match (σ σ' : Store) (c : Int) (p p' : CoreProver E) (a : Val E × CoreProver E) (τ : Store)
    (b : Val E × CoreProver E) (τ' : Store) : Prop :=
  (τ = σ ∧ τ' = σ') ∧ a.1 = b.1 ∧ PTree.stmtOf a.2 = PTree.stmtOf p ∧ PTree.stmtOf b.2 = PTree.stmtOf p' ∧
    ∃ r, (∀ s, PTree.computeResponse a.2 c ⟨σ, s⟩ = .ok (r, ⟨σ, s⟩)) ∧
      ∀ s, PTree.computeResponse b.2 c ⟨σ', s⟩ = .ok (r, ⟨σ', s⟩)

/-- A representation whose randomizers are given. -/
theorem leaf_given {p : DLRepProver E} (h : FitRep σ X p) {D : Dict Int} (hu : D.Uniq σ)
    (hcov : ∀ x ∈ p.stmt.secretVars, ∃ v, Dict.get? σ D x = some v) (c : Int) :
    ∃ com p1, p1.stmt = p.stmt ∧
      (∀ s, DLRepProver.internalCommit p (some D) ⟨σ, s⟩ = .ok ((com, p1), ⟨σ, s⟩)) ∧
      (∀ s, DLRepProver.computeResponse p1 c ⟨σ, s⟩ = .ok (fill (fun x => (X (σ.key x) * c +
        (Dict.get? σ D x).getD 0) % (p.stmt.lhs.grp.order : Int)) (.leaf p.stmt), ⟨σ, s⟩)) ∧
      DLRep.recompute p.stmt c (fill (fun x => (X (σ.key x) * c +
        (Dict.get? σ D x).getD 0) % (p.stmt.lhs.grp.order : Int)) (.leaf p.stmt)) = .ok com := by
  obtain ⟨⟨hs, ht⟩, hwf, hh⟩ := h
  have hq : OrdersOK σ (fun _ => p.stmt.lhs.grp.order) (.leaf p.stmt) := by
    intro x b hb
    rw [hs.2.2.1 b (List.of_mem_zip hb).2]
  have hud : ∀ d0, some D = some d0 → d0.Uniq σ := by
    intro d0 e; injection e with e; subst e; exact hu
  have key : ∀ s, ∃ com p1, DLRepProver.internalCommit p (some D) ⟨σ, s⟩ = .ok ((com, p1), ⟨σ, s⟩) := by
    intro s
    obtain ⟨com, p1, w1, h1, _⟩ := commit_progress_dlrep p hs (some D) ⟨σ, s⟩ hud
    have h2 : PTree.internalCommit (.leaf p : CoreProver E) (some D) ⟨σ, s⟩ = .ok ((com, .leaf p1), w1) := by
      simp only [PTree.internalCommit]
      have h1' : (ProverOps.internalCommit p (some D) : PM (Val E × DLRepProver E)) ⟨σ, s⟩ =
        .ok ((com, p1), w1) := h1
      rw [pm_bind_eq h1']
      rfl
    obtain ⟨rfl, _⟩ := commit_given (.leaf p) (.leaf p) (.leaf p ⟨⟨hs, ht⟩, hwf, hh⟩) _ hq D _ _ _ _ rfl hcov h2
    exact ⟨com, p1, h1⟩
  obtain ⟨com, p1, h1⟩ := key fun _ => 0
  have hall : ∀ s, DLRepProver.internalCommit p (some D) ⟨σ, s⟩ = .ok ((com, p1), ⟨σ, s⟩) := by
    intro s
    simp only [DLRepProver.internalCommit, DLRep.updateRandomizers] at h1 ⊢
    rw [pm_bind_eq (update_given hcov), pm_getStore_bind, pm_liftE_bind_iff] at h1
    obtain ⟨ks, hks, h1⟩ := h1
    obtain ⟨cm, hcm, h1⟩ := pm_liftE_bind_iff.mp h1
    rw [pm_pure_iff, Prod.mk.injEq, Prod.mk.injEq] at h1
    obtain ⟨⟨rfl, rfl⟩, _⟩ := h1
    rw [pm_bind_eq (update_given (w := ⟨σ, s⟩) hcov), pm_getStore_bind]
    simp only at hks ⊢
    rw [hks, pm_liftE_bind, hcm, pm_liftE_bind]
    rfl
  obtain ⟨_, h3, _, ρ, _, hlaw⟩ := commit_dlrep p hh hwf hud rfl h1
  have hresp : ∀ s, DLRepProver.computeResponse p1 c ⟨σ, s⟩ = .ok (fill (fun x => (X (σ.key x) * c +
        (Dict.get? σ D x).getD 0) % (p.stmt.lhs.grp.order : Int)) (.leaf p.stmt), ⟨σ, s⟩) := by
    intro s
    have h2 : PTree.internalCommit (.leaf p : CoreProver E) (some D) ⟨σ, s⟩ =
        .ok ((com, .leaf p1), ⟨σ, s⟩) := by
      simp only [PTree.internalCommit]
      have h1' : (ProverOps.internalCommit p (some D) : PM (Val E × DLRepProver E)) ⟨σ, s⟩ =
        .ok ((com, p1), ⟨σ, s⟩) := hall s
      rw [pm_bind_eq h1']
      rfl
    exact (commit_given (.leaf p) (.leaf p) (.leaf p ⟨⟨hs, ht⟩, hwf, hh⟩) _ hq D _ _ _ _ rfl hcov h2).2 c
      ⟨σ, s⟩ rfl
  refine ⟨com, p1, h3, hall, hresp, ?_⟩
  obtain ⟨resp, w', g1, _, g2, _⟩ := hlaw _ hq c ⟨σ, fun _ => 0⟩ rfl
  rw [hresp] at g1
  injection g1 with g1
  injection g1 with g1 _
  subst g1
  exact (recompute_iff _ _ _ _).mpr g2

theorem commit_leaf (hM : M ≠ 0) (hV : SameKeys σ σ' V) {s : DLRep E} {p p' : DLRepProver E}
    (h : FitRep σ X p) (h' : FitRep σ' X' p') (e : p.stmt.norm = s.norm) (e' : p'.stmt.norm = s.norm)
    (hr : Ready M V σ σ' (.leaf s)) (c : Int) {d d' : Option (Dict Int)}
    (hd : Handed σ X σ' X' c (.leaf s) d d') :
    Twin M (Match σ σ' c (.leaf p) (.leaf p')) (starting σ (PTree.internalCommit (.leaf p : CoreProver E) d))
      (starting σ' (PTree.internalCommit (.leaf p' : CoreProver E) d')) := by
  have hs : SolidRep s := by cases hr.good with | leaf _ h => exact h
  obtain ⟨l1, l2, l3⟩ := norm_fields e
  obtain ⟨r1, r2, r3⟩ := norm_fields e'
  have hb : Tree.blank (.leaf p.stmt : Core E) = Tree.blank (.leaf s) := congrArg Tree.leaf e
  have hb' : Tree.blank (.leaf p'.stmt : Core E) = Tree.blank (.leaf s) := congrArg Tree.leaf e'
  have hR := shift_table (X := X) (X' := X') hM hr.good (sameOrders_leaf hs σ) hV hr.sub hr.dvd c
    (getR := DLRep.getRandomizers p.stmt) (getR' := DLRep.getRandomizers p'.stmt)
    (by rw [starting_leaf h.1.1, table_blank hb]) (by rw [starting_leaf h'.1.1, table_blank hb'])
    (by rintro w d w' rfl hh
        have := (DLRep.getRandomizers_ok hh).2
        rw [l3] at this; exact this)
    (by rintro w d w' rfl hh; exact (DLRep.getRandomizers_ok hh).2.1)
  have key : Twin M (fun (a : Val E × DLRepProver E) τ (b : Val E × DLRepProver E) τ' =>
      Match σ σ' c (.leaf p) (.leaf p') (a.1, .leaf a.2) τ (b.1, .leaf b.2) τ')
      (starting σ (DLRepProver.internalCommit p d)) (starting σ' (DLRepProver.internalCommit p' d')) := by
    simp only [DLRepProver.internalCommit, DLRep.updateRandomizers]
    rw [l3, r3]
    refine .bind (upd_shift (t := .leaf s) rfl hR hd) ?_
    rintro D τ D' τ' ⟨⟨rfl, rfl⟩, hD⟩
    have hc : ∀ x ∈ p.stmt.secretVars, ∃ v, Dict.get? τ D x = some v := by
      intro x hx
      obtain ⟨v, v', g1, _, _⟩ := hD.2.2 x (show x ∈ s.secretVars from l3 ▸ hx)
      exact ⟨v, g1⟩
    have hc' : ∀ x ∈ p'.stmt.secretVars, ∃ v, Dict.get? τ' D' x = some v := by
      intro x hx
      obtain ⟨v, v', _, g2, _⟩ := hD.2.2 x (show x ∈ s.secretVars from r3 ▸ hx)
      exact ⟨v', g2⟩
    obtain ⟨com, p1, a1, a2, a3, a4⟩ := leaf_given h hD.1 hc c
    obtain ⟨com', p1', b1, b2, b3, b4⟩ := leaf_given h' hD.2.1 hc' c
    have hf : fill (fun x => (X (τ.key x) * c + (Dict.get? τ D x).getD 0) % (p.stmt.lhs.grp.order : Int))
        (.leaf p.stmt) = fill (fun x => (X' (τ'.key x) * c + (Dict.get? τ' D' x).getD 0) %
          (p'.stmt.lhs.grp.order : Int)) (.leaf p'.stmt) := by
      rw [fill_of_blank (hb.trans hb'.symm)]
      refine fill_congr _ fun x hx => ?_
      have hx : x ∈ s.secretVars := r3 ▸ hx
      obtain ⟨v, v', g1, g2, g3⟩ := hD.2.2 x hx
      obtain ⟨b, hb⟩ := secret_term (wf_of_good hr.good) hx
      have g3 := g3 b hb
      have ho : b.grp.order = s.lhs.grp.order := by rw [hs.2.2.1 b (List.of_mem_zip hb).2]
      rw [ho] at g3
      rw [g1, g2, l1, r1]
      simp only [Option.getD_some]
      rw [Int.add_emod (X' (τ'.key x) * c) v', g3, ← Int.add_emod]
      congr 1
      unfold gap
      ring
    rw [← hf] at b3 b4
    have hcom : com = com' := by
      rw [recompute_norm e] at a4
      rw [recompute_norm e', a4] at b4
      exact Except.ok.inj b4
    subst hcom
    refine .ends (a := (com, p1)) (b := (com, p1')) (τ := τ) (τ' := τ') ⟨⟨rfl, rfl⟩, rfl, congrArg Tree.leaf a1,
      congrArg Tree.leaf b1, _, a3, b3⟩ (fun s => ?_) fun s => ?_
    · have := a2 s
      simp only [DLRepProver.internalCommit, DLRep.updateRandomizers] at this
      rw [pm_bind_eq (update_given (w := ⟨τ, s⟩) hc), l3] at this
      exact this
    · have := b2 s
      simp only [DLRepProver.internalCommit, DLRep.updateRandomizers] at this
      rw [pm_bind_eq (update_given (w := ⟨τ', s⟩) hc'), r3] at this
      exact this
  simp only [PTree.internalCommit]
  exact .bind key fun a τ b τ' hq => by
    obtain ⟨⟨rfl, rfl⟩, _⟩ := id hq
    exact .pure hq

end Zksk.Peer
