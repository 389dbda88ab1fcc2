import Verif.SpecPretend
import Verif.Lemmas.PeersRun
import Verif.Lemmas.ExtCore

/-! Honest runs and runs without the values of the secrets. -/

set_option linter.unusedSectionVars false

namespace Zksk.Ward

open Spec Peer

variable {E : Type} [AddCommGroup E] [DecidableEq E]

/-! ### Composition rules depend only on which secrets are identified -/

theorem composable_keys {σ σ' : Store} {t : Core E} (h : Composable σ t) :
    SameKeys σ σ' (secrets t) → Composable σ' t := by
  induction h with
  | leaf s => intro _; exact .leaf s
  | and b subs ho hp h ih =>
    intro hs
    refine .and b subs (fun x b y c hx hy he => ho x b y c hx hy
      ((hs x (mem_terms_secrets _ hx) y (mem_terms_secrets _ hy)).mp he)) ?_ fun t ht => ih t ht fun x hx y hy =>
        hs x ?_ y ?_
    · intro pre u post hu x hx y hy
      have := orAt_secrets hu
      have hk := hs x (by rw [this]; simp [hx]) y (by
        rw [this]; simp only [List.mem_append] at hy ⊢; tauto)
      exact fun e => hp pre u post hu x hx y hy (hk.mp e)
    · simp only [secrets]; exact mem_secretsL.mpr ⟨t, ht, hx⟩
    · simp only [secrets]; exact mem_secretsL.mpr ⟨t, ht, hy⟩
  | or b subs ho h ih =>
    intro hs
    refine .or b subs (fun x b y c hx hy he => ho x b y c hx hy
      ((hs x (mem_terms_secrets _ hx) y (mem_terms_secrets _ hy)).mp he)) fun t ht => ih t ht fun x hx y hy =>
        hs x ?_ y ?_
    · simp only [secrets]; exact mem_secretsL.mpr ⟨t, ht, hx⟩
    · simp only [secrets]; exact mem_secretsL.mpr ⟨t, ht, hy⟩

/-! ### Related provers -/

/-- A prover of statement `t` with values `X`, and the same provers without them. -/
inductive Wards (σ : Store) (X : Key → Int) : Core E → CoreProver E → CoreProver E → Prop
  | leaf (s : DLRep E) (p p' : DLRepProver E) (h : FitRep σ X p)
      (e : p.stmt.norm = s.norm) (e' : p'.stmt.norm = s.norm) : Wards σ X (.leaf s) (.leaf p) (.leaf p')
  | and (b b1 b2 : Bool) (ts : List (Core E)) (ps ps' : List (CoreProver E)) (l : ps.length = ts.length)
      (l' : ps'.length = ts.length)
      (h : ∀ (i : Nat) t p p', ts[i]? = some t → ps[i]? = some p → ps'[i]? = some p' → Wards σ X t p p') :
      Wards σ X (.and b ts) (.and b1 ps) (.and b2 ps')
  | or (b b1 b2 : Bool) (i : Nat) (ts us us' : List (Core E)) (t : Core E) (p p' : CoreProver E)
      (sims : List (Sim E)) (e : Tree.blankL us = Tree.blankL ts) (e' : Tree.blankL us' = Tree.blankL ts)
      (hi : ts[i]? = some t) (l : sims.length + 1 = ts.length) (h : Wards σ X t p p') :
      Wards σ X (.or b ts) (.or b1 i us p sims) (.or b2 i us' p' sims)

variable {M : Nat} {σ σ' : Store} {X : Key → Int} {V : List Sec}

theorem wards_blank {t : Core E} {p p' : CoreProver E} (h : Wards σ X t p p') :
    Tree.blank (PTree.stmtOf p) = Tree.blank t ∧ Tree.blank (PTree.stmtOf p') = Tree.blank t := by
  induction h with
  | leaf s p p' _ e e' => exact ⟨congrArg Tree.leaf e, congrArg Tree.leaf e'⟩
  | and b b1 b2 ts ps ps' l l' _ ih =>
    simp only [PTree.stmtOf, Tree.blank, Tree.and.injEq, true_and]
    rw [Tree.blankL_eq, Tree.blankL_eq, Tree.blankL_eq, stmtOfL_eq, stmtOfL_eq]
    constructor
    · refine List.ext_getElem? fun i => ?_
      simp only [List.getElem?_map, Option.map_map]
      by_cases hi : i < ts.length
      · rw [List.getElem?_eq_getElem hi, List.getElem?_eq_getElem (l ▸ hi)]
        simp only [Option.map_some, Function.comp, Option.some.injEq]
        exact (ih i _ _ _ (List.getElem?_eq_getElem hi) (List.getElem?_eq_getElem (l ▸ hi))
          (List.getElem?_eq_getElem (l' ▸ hi))).1
      · rw [List.getElem?_eq_none (by omega), List.getElem?_eq_none (by omega)]; rfl
    · refine List.ext_getElem? fun i => ?_
      simp only [List.getElem?_map, Option.map_map]
      by_cases hi : i < ts.length
      · rw [List.getElem?_eq_getElem hi, List.getElem?_eq_getElem (l' ▸ hi)]
        simp only [Option.map_some, Function.comp, Option.some.injEq]
        exact (ih i _ _ _ (List.getElem?_eq_getElem hi) (List.getElem?_eq_getElem (l ▸ hi))
          (List.getElem?_eq_getElem (l' ▸ hi))).2
      · rw [List.getElem?_eq_none (by omega), List.getElem?_eq_none (by omega)]; rfl
  | or b b1 b2 i ts us us' t p p' sims e e' hi l _ ih =>
    exact ⟨congrArg (Tree.or false) (blankL_set e hi ih.1), congrArg (Tree.or false) (blankL_set e' hi ih.2)⟩

/-! ### Randomizers and responses -/

/-- `D'` has the responses to `c` of a prover with randomizers `D`. -/
def Answers (σ : Store) (X : Key → Int) (σ' : Store) (c : Int) (t : Core E) (D D' : Dict Int) : Prop :=
  D.Uniq σ ∧ ∀ x ∈ secrets t, ∃ v, Dict.get? σ D x = some v ∧
    ∀ b, (x, b) ∈ terms t → Dict.get? σ' D' x = some ((X (σ.key x) * c + v) % (b.grp.order : Int))

theorem answers_covered {c : Int} {t : Core E} (hw : WellFormed t) {D D' : Dict Int}
    (h : Answers σ X σ' c t D D') : ∀ x ∈ secrets t, ∃ v, Dict.get? σ' D' x = some v := by
  intro x hx
  obtain ⟨v, _, h2⟩ := h.2 x hx
  obtain ⟨b, hb⟩ := secret_term hw hx
  exact ⟨_, h2 b hb⟩

theorem answers_congr {c : Int} {t u : Core E} {D D' : Dict Int} (hs : ∀ x ∈ secrets u, x ∈ secrets t)
    (ht : ∀ x b, (x, b) ∈ terms u → (x, b) ∈ terms t) (h : Answers σ X σ' c t D D') :
    Answers σ X σ' c u D D' := by
  refine ⟨h.1, fun x hx => ?_⟩
  obtain ⟨v, h1, h2⟩ := h.2 x (hs x hx)
  exact ⟨v, h1, fun b hb => h2 b (ht x b hb)⟩

theorem answers_of_draws {t : Core E} (hg : Good SolidRep t) (ho : SameOrders σ t) (hV : SameKeys σ σ' V)
    (hsub : ∀ x ∈ secrets t, x ∈ V) {c : Int} {D D' : Dict Int} (hu : D.Uniq σ)
    (hcov : ∀ x ∈ secrets t, ∃ v, Dict.get? σ D x = some v)
    (h : ∀ x, (∀ e ∈ table σ t, (σ'.key e.1 = σ'.key x ↔ σ.key e.1 = σ.key x)) →
      ∀ v, Dict.get? σ D x = some v → ∃ e ∈ table σ t, σ.key e.1 = σ.key x ∧
        Dict.get? σ' D' x = some ((v + X (σ.key e.1) * c) % (e.2 : Int))) :
    Answers σ X σ' c t D D' := by
  refine ⟨hu, fun x hx => ?_⟩
  obtain ⟨v, hv⟩ := hcov x hx
  have hk : ∀ e ∈ table σ t, (σ'.key e.1 = σ'.key x ↔ σ.key e.1 = σ.key x) :=
    fun e he => hV e.1 (hsub _ (table_keys e he)) x (hsub x hx)
  obtain ⟨e, he, h1, h2⟩ := h x hk v hv
  refine ⟨v, hv, fun b hb => ?_⟩
  obtain ⟨q, hq⟩ := sameOrders_q ho
  have h3 := table_orders hg hq e he
  rw [h2, h3, h1, hq x b hb, Int.add_comm]

theorem answer_table {t : Core E} (hM : M ≠ 0) (hg : Good SolidRep t) (ho : SameOrders σ t)
    (hV : SameKeys σ σ' V) (hsub : ∀ x ∈ secrets t, x ∈ V)
    (hdvd : ∀ x b, (x, b) ∈ terms t → b.grp.order ∣ M) (c : Int) {getR getR' : PM (Dict Int)}
    (e : starting σ getR = starting σ (Tree.drawDict (table σ t)))
    (e' : starting σ' getR' = starting σ' (Tree.drawDict (table σ' t)))
    (hk : ∀ w d w', w.store = σ → getR w = .ok (d, w') → Tree.GoodDict σ (secrets t) d) :
    Twin M (fun a τ b τ' => (τ = σ ∧ τ' = σ') ∧ Answers σ X σ' c t a b)
      (starting σ getR) (starting σ' getR') := by
  have ht : table σ' t = table σ t := table_same fun x hx y hy => hV x (hsub x hx) y (hsub y hy)
  rw [ht] at e'
  have key := drawDict_shift (σ := σ) (σ' := σ') hM (fun x => X (σ.key x) * c) (table σ t) (table_nonzero hg)
    (table_dvd hg ho hdvd)
  rw [← e, ← e'] at key
  refine (key.left (P := fun a _ => Tree.GoodDict σ (secrets t) a) fun r a w h => hk _ _ _ rfl h).mono ?_
  rintro a τ b τ' ⟨⟨h1, h2⟩, h3⟩
  exact ⟨h1, answers_of_draws hg ho hV hsub h3.1 h3.2 h2⟩

/-- Dictionaries handed down. -/
def Passed (σ : Store) (X : Key → Int) (σ' : Store) (c : Int) (t : Core E) :
    Option (Dict Int) → Option (Dict Int) → Prop
  | none, none => True
  | some D, some D' => Answers σ X σ' c t D D'
  | _, _ => False

theorem upd_answer {t : Core E} (hw : WellFormed t) {vars : List Sec} {getR getR' : PM (Dict Int)} {c : Int}
    (hv : secrets t = vars)
    (hR : Twin M (fun a τ b τ' => (τ = σ ∧ τ' = σ') ∧ Answers σ X σ' c t a b)
      (starting σ getR) (starting σ' getR')) {d d' : Option (Dict Int)} (hd : Passed σ X σ' c t d d') :
    Twin M (fun a τ b τ' => (τ = σ ∧ τ' = σ') ∧ Answers σ X σ' c t a b)
      (starting σ (Tree.updateRandomizersWith (.ok vars) getR d))
      (starting σ' (Tree.updateRandomizersWith (.ok vars) getR' d')) := by
  subst hv
  cases d with
  | none =>
    cases d' with
    | none => exact hR
    | some _ => exact hd.elim
  | some D =>
    cases d' with
    | none => exact hd.elim
    | some D' =>
      have hd : Answers σ X σ' c t D D' := hd
      refine .ends (τ := σ) (τ' := σ') ⟨⟨rfl, rfl⟩, hd⟩ (fun r => update_given ?_) fun r => update_given ?_
      · intro x hx
        obtain ⟨v, h1, _⟩ := hd.2 x hx
        exact ⟨v, h1⟩
      · exact answers_covered hw hd

/-! ### Commitments and responses -/

/-- The same commitment, and the same response to `c`. -/
def Faked (σ σ' : Store) (c : Int) (p : CoreProver E) (a : Val E × CoreProver E) (τ : Store)
    (b : Val E × Val E) (τ' : Store) : Prop :=
  (τ = σ ∧ τ' = σ') ∧ a.1 = b.1 ∧ PTree.stmtOf a.2 = PTree.stmtOf p ∧
    ∀ s, PTree.computeResponse a.2 c ⟨σ, s⟩ = .ok (b.2, ⟨σ, s⟩)

theorem pretend_leaf (hM : M ≠ 0) (hV : SameKeys σ σ' V) {s : DLRep E} {p p' : DLRepProver E}
    (h : FitRep σ X p) (e : p.stmt.norm = s.norm) (e' : p'.stmt.norm = s.norm)
    (hr : Ready M V σ σ' (.leaf s)) (c : Int) {d d' : Option (Dict Int)}
    (hd : Passed σ X σ' c (.leaf s) d d') :
    Twin M (Faked σ σ' c (.leaf p)) (starting σ (PTree.internalCommit (.leaf p : CoreProver E) d))
      (starting σ' (pretend (.leaf p' : CoreProver E) d' c)) := by
  have hs : SolidRep s := by cases hr.good with | leaf _ h => exact h
  obtain ⟨l1, l2, l3⟩ := norm_fields e
  obtain ⟨r1, r2, r3⟩ := norm_fields e'
  have hb : Tree.blank (.leaf p.stmt : Core E) = Tree.blank (.leaf s) := congrArg Tree.leaf e
  have hb' : Tree.blank (.leaf p'.stmt : Core E) = Tree.blank (.leaf s) := congrArg Tree.leaf e'
  have hs' : SolidRep p'.stmt := by
    have := good_blank (.leaf s hs) _ hb'
    cases this with | leaf _ h => exact h
  have hR := answer_table (X := X) hM hr.good (sameOrders_leaf hs σ) hV hr.sub hr.dvd c
    (getR := DLRep.getRandomizers p.stmt) (getR' := DLRep.getRandomizers p'.stmt)
    (by rw [starting_leaf h.1.1, table_blank hb]) (by rw [starting_leaf hs', table_blank hb'])
    (by rintro w d w' rfl hh
        have := (DLRep.getRandomizers_ok hh).2
        rw [l3] at this; exact this)
  have key : Twin M (fun (a : Val E × DLRepProver E) τ (b : Sim E) τ' =>
      Faked σ σ' c (.leaf p) (a.1, .leaf a.2) τ (b.commitment, b.responses) τ')
      (starting σ (DLRepProver.internalCommit p d)) (starting σ' (DLRep.simulate p'.stmt d' (some c))) := by
    simp only [DLRepProver.internalCommit, DLRep.simulate, DLRep.updateRandomizers]
    rw [l3, r3]
    refine .bind (upd_answer (t := .leaf s) (wf_of_good hr.good) rfl hR hd) ?_
    rintro D τ D' τ' ⟨⟨rfl, rfl⟩, hD⟩
    have hc : ∀ x ∈ p.stmt.secretVars, ∃ v, Dict.get? τ D x = some v := by
      intro x hx
      obtain ⟨v, g1, _⟩ := hD.2 x (show x ∈ s.secretVars from l3 ▸ hx)
      exact ⟨v, g1⟩
    have hc' : ∀ x ∈ s.secretVars, ∃ v, Dict.get? τ' D' x = some v := answers_covered (wf_of_good hr.good) hD
    obtain ⟨com, p1, a1, a2, a3, a4⟩ := leaf_given h hD.1 hc c
    have hf : fill (fun x => (X (τ.key x) * c + (Dict.get? τ D x).getD 0) % (p.stmt.lhs.grp.order : Int))
        (.leaf p.stmt) = .list ((s.secretVars.map fun x => (Dict.get? τ' D' x).getD 0).map Val.int) := by
      simp only [fill, List.map_map, l3]
      congr 1
      refine List.map_congr_left fun x hx => ?_
      obtain ⟨v, g1, g2⟩ := hD.2 x hx
      obtain ⟨b, hb⟩ := secret_term (wf_of_good hr.good) (show x ∈ secrets (.leaf s) from hx)
      have g2 := g2 b hb
      have ho : b.grp.order = s.lhs.grp.order := by rw [hs.2.2.1 b (List.of_mem_zip hb).2]
      rw [ho] at g2
      simp only [Function.comp, g1, g2, l1, Option.getD_some]
    rw [hf] at a3 a4
    rw [recompute_norm e] at a4
    refine .ends (a := (com, p1)) (b := ⟨com, c, _, .none⟩) (τ := τ) (τ' := τ') ⟨⟨rfl, rfl⟩, rfl,
      congrArg Tree.leaf a1, a3⟩ (fun s => ?_) fun r => ?_
    · have := a2 s
      simp only [DLRepProver.internalCommit, DLRep.updateRandomizers] at this
      rw [pm_bind_eq (update_given (w := ⟨τ, s⟩) hc), l3] at this
      exact this
    · simp only [Tree.challengeOrDraw, pure_bind]
      rw [pm_getStore_bind]
      simp only
      rw [lookupAll_eq hc', pm_liftE_bind, recompute_norm e', a4, pm_liftE_bind]
      rfl
  simp only [PTree.internalCommit, pretend]
  exact .bind key fun a τ b τ' hq => by
    obtain ⟨⟨rfl, rfl⟩, _⟩ := id hq
    exact .pure hq

/-- Lists of provers. -/
theorem pretendL_twin {M : Nat} {σ σ' : Store} {c : Int} {D D' : Dict Int} : ∀ (ps ps' : List (CoreProver E)),
    ps.length = ps'.length →
    (∀ (i : Nat) p p', ps[i]? = some p → ps'[i]? = some p' → Twin M (Faked σ σ' c p)
      (starting σ (PTree.internalCommit p (some D))) (starting σ' (pretend p' (some D') c))) →
    Twin M (fun (a : List (Val E) × List (CoreProver E)) τ (b : List (Val E) × List (Val E)) τ' =>
        (τ = σ ∧ τ' = σ') ∧ a.1 = b.1 ∧ PTree.stmtOfL a.2 = PTree.stmtOfL ps ∧
        ∀ s, PTree.computeResponseL a.2 c ⟨σ, s⟩ = .ok (b.2, ⟨σ, s⟩))
      (starting σ (PTree.internalCommitL ps D)) (starting σ' (pretendL ps' D' c))
  | [], [], _, _ => .pure ⟨⟨rfl, rfl⟩, rfl, rfl, fun _ => rfl⟩
  | [], _ :: _, h, _ => by simp at h
  | _ :: _, [], h, _ => by simp at h
  | p :: ps, p' :: ps', hl, h => by
    simp only [PTree.internalCommitL, pretendL]
    refine .bind (h 0 p p' rfl rfl) ?_
    rintro ⟨v, p1⟩ τ ⟨v', r⟩ τ' ⟨⟨rfl, rfl⟩, h1, h2, h4⟩
    simp only at h1 h2 h4
    subst h1
    refine .bind (pretendL_twin ps ps' (by simpa using hl) fun i q q' hq hq' => h (i + 1) q q' hq hq') ?_
    rintro ⟨vs, qs⟩ τ ⟨vs', rs⟩ τ' ⟨⟨rfl, rfl⟩, g1, g2, g4⟩
    simp only at g1 g2 g4
    subst g1
    refine .pure ⟨⟨rfl, rfl⟩, rfl, ?_, fun s => ?_⟩
    · simp only [PTree.stmtOfL, h2, g2]
    · simp only [PTree.computeResponseL]
      rw [pm_bind_eq (h4 s), pm_bind_eq (g4 s)]
      rfl

/-- The commitment of a prover and its response to `c`, without the values. -/
theorem pretend_twin {M : Nat} {σ σ' : Store} {X : Key → Int} {V : List Sec} (hM : M ≠ 0)
    (hV : SameKeys σ σ' V) {t : Core E} {p p' : CoreProver E} (h : Wards σ X t p p') :
    Ready M V σ σ' t → ∀ (c : Int) (d d' : Option (Dict Int)), Passed σ X σ' c t d d' →
    Twin M (Faked σ σ' c p) (starting σ (PTree.internalCommit p d)) (starting σ' (pretend p' d' c)) := by
  induction h with
  | leaf s p p' h e e' =>
    intro hr c d d' hd
    exact pretend_leaf hM hV h e e' hr c hd
  | and b b1 b2 ts ps ps' l l' h ih =>
    intro hr c d d' hd
    obtain ⟨hb, hb'⟩ := wards_blank (.and b b1 b2 ts ps ps' l l' h)
    simp only [PTree.stmtOf] at hb hb'
    have hg1 := good_blank hr.good _ hb
    have hg2 := good_blank hr.good _ hb'
    have ho : SameOrders σ (.and b ts) := by cases hr.comp with | and _ _ ho _ _ => exact ho
    have hsec : secrets (.and b1 (PTree.stmtOfL ps) : Core E) = secrets (.and b ts) := (shape_blank _ _ hb).2
    have hsec' : secrets (.and b2 (PTree.stmtOfL ps') : Core E) = secrets (.and b ts) := (shape_blank _ _ hb').2
    have hR := answer_table (X := X) hM hr.good ho hV hr.sub hr.dvd c
      (getR := Tree.getRandomizers (.and b1 (PTree.stmtOfL ps) : Core E))
      (getR' := Tree.getRandomizers (.and b2 (PTree.stmtOfL ps') : Core E))
      (by rw [starting_and hg1, table_blank hb]) (by rw [starting_and hg2, table_blank hb'])
      (by rintro w d w' rfl hh
          have := (Tree.getRandomizers_ok (secretVars_core _) (bases_core _)
            (le_of_eq (wf_length _ (wf_of_good hg1))) hh).2
          rw [← hsec]; exact this)
    have hval : Twin M (fun (_ : Unit) τ (_ : Unit) τ' => τ = σ ∧ τ' = σ')
        (starting σ (do let σ ← getStore; liftE (Tree.validateComposition σ (.and b1 (PTree.stmtOfL ps) : Core E))))
        (starting σ' (pure ())) := by
      refine .ends (a := ()) (b := ()) (τ := σ) (τ' := σ') ⟨rfl, rfl⟩ (fun r => ?_) fun _ => rfl
      rw [pm_getStore_bind]
      simp only
      rw [validate_ready hr.good hr.comp hb (by simp)]
      rfl
    have e0 : (PTree.internalCommit (.and b1 ps : CoreProver E) d) = ((do
        let σ ← getStore; liftE (Tree.validateComposition σ (.and b1 (PTree.stmtOfL ps) : Core E))) >>= fun _ => do
        let d' ← Tree.updateRandomizers (Tree.and b1 (PTree.stmtOfL ps) : Core E) d
        let (vs, subs') ← PTree.internalCommitL ps d'
        pure (Val.list vs, PTree.and b1 subs')) := by
      simp only [PTree.internalCommit]
      rfl
    have e3 : pretend (.and b2 ps' : CoreProver E) d' c = ((pure () : PM Unit) >>= fun _ => do
        let d' ← Tree.updateRandomizers (Tree.and b2 (PTree.stmtOfL ps') : Core E) d'
        let (cs, rs) ← pretendL ps' d' c
        pure (.list cs, .list rs)) := by
      simp only [pretend]
      rfl
    rw [e0, e3]
    refine .bind hval ?_
    rintro _ τ _ τ' ⟨rfl, rfl⟩
    simp only [Tree.updateRandomizers]
    rw [secretVars_core, secretVars_core]
    have e1 : coreVars (.and b1 (PTree.stmtOfL ps) : Core E) = secrets (.and b ts) := hsec
    have e2 : coreVars (.and b2 (PTree.stmtOfL ps') : Core E) = secrets (.and b ts) := hsec'
    rw [e1, e2]
    refine .bind (upd_answer (wf_of_good hr.good) rfl hR hd) ?_
    rintro D τ D' τ' ⟨⟨rfl, rfl⟩, hD⟩
    refine .bind (pretendL_twin (c := c) ps ps' (l.trans l'.symm) fun i p p' hp hp' => ?_) ?_
    · have hi : i < ts.length := l ▸ (List.getElem?_eq_some_iff.mp hp).1
      have ht := List.getElem?_eq_getElem hi
      have hm := List.mem_of_getElem? ht
      exact ih i _ p p' ht hp hp' (ready_and hr hm) c (some D) (some D')
        (answers_congr (t := .and b ts) (fun x hx => mem_secretsL.mpr ⟨_, hm, hx⟩)
          (fun x b hx => mem_termsL.mpr ⟨_, hm, hx⟩) hD)
    · rintro ⟨vs, qs⟩ τ ⟨vs', rs⟩ τ' ⟨⟨rfl, rfl⟩, g1, g2, g4⟩
      simp only at g1 g2 g4
      subst g1
      refine .pure ⟨⟨rfl, rfl⟩, rfl, ?_, fun s => ?_⟩
      · simp only [PTree.stmtOf, g2]
      · simp only [PTree.computeResponse]
        rw [pm_bind_eq (g4 s)]
        rfl
  | or b b1 b2 i ts us us' t p p' sims e e' hi l h ih =>
    intro hr c d d' hd
    obtain ⟨hb, hb'⟩ := wards_blank (.or b b1 b2 i ts us us' t p p' sims e e' hi l h)
    simp only [PTree.stmtOf] at hb hb'
    have hlt := (List.getElem?_eq_some_iff.mp hi).1
    have l1 : us.length = sims.length + 1 := ((blankL_get e).1).trans l.symm
    have slots : ∀ {α : Type} (f : Sim E → α) (v : α),
        PTree.orSlots (sims.length + 1) i v (sims.map f) = .ok ((sims.map f).insertIdx i v) := by
      intro α f v
      have := orSlots_eq i v (sims.map f) (by simp; omega)
      simpa using this
    have hval : Twin M (fun (_ : Unit) τ (_ : Unit) τ' => τ = σ ∧ τ' = σ')
        (starting σ (do let σ ← getStore; liftE (Tree.validateComposition σ
          (.or b1 (us.set i (PTree.stmtOf p)) : Core E))))
        (starting σ' (pure ())) := by
      refine .ends (a := ()) (b := ()) (τ := σ) (τ' := σ') ⟨rfl, rfl⟩ (fun r => ?_) fun _ => rfl
      rw [pm_getStore_bind]
      simp only
      rw [validate_ready hr.good hr.comp hb (by simp)]
      rfl
    have e0 : (PTree.internalCommit (.or b1 i us p sims : CoreProver E) d) = ((do
        let σ ← getStore; liftE (Tree.validateComposition σ (.or b1 (us.set i (PTree.stmtOf p)) : Core E))) >>=
        fun _ => do
        let (v, sub') ← PTree.internalCommit p none
        let vs ← liftE (PTree.orSlots us.length i v (sims.map Sim.commitment))
        pure (Val.list vs, PTree.or b1 i us sub' sims)) := by
      simp only [PTree.internalCommit]
      rfl
    have e3 : pretend (.or b2 i us' p' sims : CoreProver E) d' c = ((pure () : PM Unit) >>= fun _ => do
        let (v, r) ← pretend p' none (findResidualChallenge (sims.map Sim.challenge) c challengeLength)
        pure (.list ((sims.map Sim.commitment).insertIdx i v),
          .tuple [.list (((sims.map Sim.challenge).insertIdx i
            (findResidualChallenge (sims.map Sim.challenge) c challengeLength)).map Val.int),
            .list ((sims.map Sim.responses).insertIdx i r)])) := by
      simp only [pretend]
      rfl
    rw [e0, e3]
    refine .bind hval ?_
    rintro _ τ _ τ' ⟨rfl, rfl⟩
    refine .bind (ih (ready_or hr (List.mem_of_getElem? hi))
      (findResidualChallenge (sims.map Sim.challenge) c challengeLength) none none trivial) ?_
    rintro ⟨v, p1⟩ τ ⟨v', r⟩ τ' ⟨⟨rfl, rfl⟩, h1, h2, h4⟩
    simp only at h1 h2 h4
    subst h1
    simp only
    rw [l1]
    refine .ends (τ := τ) (τ' := τ') (a := (.list ((sims.map Sim.commitment).insertIdx i v), .or b1 i us p1 sims))
      (b := (_, _)) ⟨⟨rfl, rfl⟩, rfl, ?_, fun s => ?_⟩ (fun s => ?_) fun s => rfl
    · simp only [PTree.stmtOf, h2]
    · simp only [PTree.computeResponse]
      rw [pm_bind_eq (h4 s), l1, slots, pm_liftE_bind, slots, pm_liftE_bind]
      rfl
    · rw [slots, pm_liftE_bind]
      rfl

/-- The same precommitment. -/
theorem wards_precommit {t : Core E} {p p' : CoreProver E} (h : Wards σ X t p p') :
    ∃ v, (∀ w, PTree.precommit p w = .ok ((v, p), w)) ∧ ∀ w, PTree.precommit p' w = .ok ((v, p'), w) := by
  induction h with
  | leaf s p p' h e e' => exact ⟨.none, fun _ => rfl, fun _ => rfl⟩
  | and b b1 b2 ts ps ps' l l' h ih =>
    have key : ∀ (ps ps' : List (CoreProver E)), ps.length = ps'.length →
        (∀ (i : Nat) p p', ps[i]? = some p → ps'[i]? = some p' →
          ∃ v, (∀ w, PTree.precommit p w = .ok ((v, p), w)) ∧ ∀ w, PTree.precommit p' w = .ok ((v, p'), w)) →
        ∃ vs, (∀ w, PTree.precommitL ps w = .ok ((vs, ps), w)) ∧
          ∀ w, PTree.precommitL ps' w = .ok ((vs, ps'), w) := by
      intro ps
      induction ps with
      | nil =>
        intro ps' hl _
        cases ps' with
        | nil => exact ⟨[], fun _ => rfl, fun _ => rfl⟩
        | cons _ _ => simp at hl
      | cons p ps ihp =>
        intro ps' hl h
        cases ps' with
        | nil => simp at hl
        | cons p' ps' =>
        obtain ⟨v, h1, h2⟩ := h 0 p p' rfl rfl
        obtain ⟨vs, h3, h4⟩ := ihp ps' (by simpa using hl) fun i q q' hq hq' => h (i + 1) q q' hq hq'
        refine ⟨v :: vs, fun w => ?_, fun w => ?_⟩
        · simp only [PTree.precommitL]
          rw [pm_bind_eq (h1 w), pm_bind_eq (h3 w)]
          rfl
        · simp only [PTree.precommitL]
          rw [pm_bind_eq (h2 w), pm_bind_eq (h4 w)]
          rfl
    obtain ⟨vs, h1, h2⟩ := key ps ps' (l.trans l'.symm) fun i p p' hp hp' => by
      have hi : i < ts.length := l ▸ (List.getElem?_eq_some_iff.mp hp).1
      exact ih i _ p p' (List.getElem?_eq_getElem hi) hp hp'
    refine ⟨PTree.andPrecommitment vs, fun w => ?_, fun w => ?_⟩
    · simp only [PTree.precommit]
      rw [pm_bind_eq (h1 w)]
      rfl
    · simp only [PTree.precommit]
      rw [pm_bind_eq (h2 w)]
      rfl
  | or b b1 b2 i ts us us' t p p' sims e e' hi l h ih =>
    obtain ⟨v, h1, h2⟩ := ih
    have hlt := (List.getElem?_eq_some_iff.mp hi).1
    have l1 : us.length = sims.length + 1 := ((blankL_get e).1).trans l.symm
    have l2 : us'.length = sims.length + 1 := ((blankL_get e').1).trans l.symm
    have slots : PTree.orSlots (sims.length + 1) i v (sims.map Sim.precommitment) =
        .ok ((sims.map Sim.precommitment).insertIdx i v) := by
      have := orSlots_eq i v (sims.map Sim.precommitment) (by simp; omega)
      simpa using this
    refine ⟨if ((sims.map Sim.precommitment).insertIdx i v).any Val.truthy then
      .list ((sims.map Sim.precommitment).insertIdx i v) else .none, fun w => ?_, fun w => ?_⟩
    · simp only [PTree.precommit]
      rw [pm_bind_eq (h1 w)]
      simp only
      rw [l1, slots, pm_liftE_bind]
      rfl
    · simp only [PTree.precommit]
      rw [pm_bind_eq (h2 w)]
      simp only
      rw [l2, slots, pm_liftE_bind]
      rfl

end Zksk.Ward
