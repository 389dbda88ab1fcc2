import Verif.Lemmas.Complete
import Verif.Lemmas.Compose

/-! Honest runs of statements without extended parts. -/

set_option linter.unusedSectionVars false

namespace Zksk

open Spec

variable {E : Type} [AddCommGroup E] [DecidableEq E]

/-! ### Setting values twice -/

theorem updateSecretValues_name (d : Dict Int) : ∀ σ : Store, (updateSecretValues σ d).name = σ.name := by
  induction d with
  | nil => intro σ; rfl
  | cons kv d ih => intro σ; exact ih (σ.setValue kv.1 kv.2)

theorem updateSecretValues_value (d : Dict Int) : ∀ (σ σ' : Store) (x : Sec),
    (x ∈ d.map Prod.fst → (updateSecretValues σ d).value x = (updateSecretValues σ' d).value x) ∧
    (x ∉ d.map Prod.fst → (updateSecretValues σ d).value x = σ.value x) := by
  induction d with
  | nil => intro σ σ' x; exact ⟨by simp, fun _ => rfl⟩
  | cons kv d ih =>
    intro σ σ' x
    have h := ih (σ.setValue kv.1 kv.2) (σ'.setValue kv.1 kv.2) x
    have h' := ih (σ'.setValue kv.1 kv.2) σ x
    refine ⟨fun hx => ?_, fun hx => ?_⟩
    · show (updateSecretValues (σ.setValue kv.1 kv.2) d).value x =
        (updateSecretValues (σ'.setValue kv.1 kv.2) d).value x
      by_cases hm : x ∈ d.map Prod.fst
      · exact h.1 hm
      · rw [h.2 hm, h'.2 hm]
        have : x = kv.1 := by
          simp only [List.map_cons, List.mem_cons] at hx
          exact hx.resolve_right hm
        simp [Store.setValue, this]
    · simp only [List.map_cons, List.mem_cons, not_or] at hx
      show (updateSecretValues (σ.setValue kv.1 kv.2) d).value x = _
      rw [h.2 hx.2]
      simp [Store.setValue, hx.1]

theorem updateSecretValues_idem (σ : Store) (d : Dict Int) :
    updateSecretValues (updateSecretValues σ d) d = updateSecretValues σ d := by
  have hn : (updateSecretValues (updateSecretValues σ d) d).name = (updateSecretValues σ d).name := by
    rw [updateSecretValues_name]
  have hv : (updateSecretValues (updateSecretValues σ d) d).value = (updateSecretValues σ d).value := by
    funext x
    by_cases hx : x ∈ d.map Prod.fst
    · exact (updateSecretValues_value d _ _ x).1 hx
    · exact (updateSecretValues_value d _ σ x).2 hx
  cases h : updateSecretValues (updateSecretValues σ d) d with
  | mk n v =>
    rw [h] at hn hv
    cases h' : updateSecretValues σ d with
    | mk n' v' => rw [h'] at hn hv; simp_all

theorem store_ext {σ σ' : Store} (h : ∀ x, σ'.key x = σ.key x) : σ' = σ := by
  cases σ; cases σ'
  simp only [Store.key, Prod.mk.injEq] at h
  simp only [Store.mk.injEq]
  exact ⟨funext fun x => (h x).1, funext fun x => (h x).2⟩

/-! ### Instances of the generic laws -/

/-- Leaves as the constructors make them, in groups whose order annihilates the bases. -/
def CoreGood (s : DLRep E) : Prop := WellFormed (.leaf s) ∧ Torsion (.leaf s)

theorem coreGood_norm {s s' : DLRep E} (h : s'.norm = s.norm) (hg : CoreGood s) : CoreGood s' := by
  have h1 : s'.bases = s.bases := by have := congrArg DLRep.bases h; exact this
  have h2 : s'.secretVars = s.secretVars := by have := congrArg DLRep.secretVars h; exact this
  obtain ⟨hw, ht⟩ := hg
  refine ⟨?_, ?_⟩
  · simpa only [WellFormed, h1, h2] using hw
  · intro x b hx
    exact ht x b (by simpa only [terms, h1, h2] using hx)

theorem good_of_wf : ∀ (t : Core E), WellFormed t → Torsion t → Good CoreGood t := by
  intro t
  induction t using Tree.ind with
  | leaf s => intro hw ht; exact .leaf s ⟨hw, ht⟩
  | and s subs ih =>
    intro hw ht
    refine .and s subs hw.1 fun t hm => ih t hm (wellFormedL_iff.mp hw.2 t hm) fun x b hx => ht x b ?_
    simp only [terms]; exact mem_termsL.mpr ⟨t, hm, hx⟩
  | or s subs ih =>
    intro hw ht
    refine .or s subs hw.1 fun t hm => ih t hm (wellFormedL_iff.mp hw.2 t hm) fun x b hx => ht x b ?_
    simp only [terms]; exact mem_termsL.mpr ⟨t, hm, hx⟩

theorem sat_true {L : Type} [StmtOps E L] (t : Tree L) : Sat (fun _ => True) t := by
  induction t using Tree.ind with
  | leaf s => exact .leaf s trivial
  | and s subs ih => exact .and s subs ih
  | or s subs ih => exact .or s subs fun t ht _ => ih t ht

theorem good_true {GL : DLRep E → Prop} {t : Core E} (h : Good GL t) : Good (fun _ => True) t := by
  induction h with
  | leaf l _ => exact .leaf l trivial
  | and s ts hne _ ih => exact .and s ts hne ih
  | or s ts hne _ ih => exact .or s ts hne ih

/-- What `get_prover` of a representation does. -/
theorem getProver_dlrep {s s' : DLRep E} {d : Dict Int} {p? : Option (DLRepProver E)} {w w' : World}
    (h : DLRepProver.getProver s d w = .ok ((p?, s'), w')) :
    w' = w ∧ s'.norm = s.norm ∧ ∀ p, p? = some p → p.stmt.norm = s.norm ∧ p.stmt = s' ∧
      p.secretValues = Dict.update w.store s.secretValues d := by
  unfold DLRepProver.getProver at h
  rw [pm_getStore_bind] at h
  split at h
  · rw [pm_pure_iff, Prod.mk.injEq, Prod.mk.injEq] at h
    obtain ⟨⟨h1, h2⟩, h3⟩ := h
    subst h1; subst h2; subst h3
    exact ⟨rfl, rfl, by simp⟩
  · rw [pm_pure_iff, Prod.mk.injEq, Prod.mk.injEq] at h
    obtain ⟨⟨h1, h2⟩, h3⟩ := h
    subst h1; subst h2; subst h3
    refine ⟨rfl, rfl, fun p hp => ?_⟩
    injection hp with hp
    subst hp
    exact ⟨rfl, rfl, rfl⟩

theorem getLaws_core (σ : Store) (d : Dict Int) (hu : updateSecretValues σ d = σ) :
    GetLaws (E := E) CoreGood (fun _ => True) (fun _ => True)
      (fun p : DLRepProver E => CoreGood p.stmt) σ d where
  upd := hu
  get := by
    intro l l' p? w w' hg _ hw h
    obtain ⟨e1, e2, e3⟩ := getProver_dlrep h
    subst e1
    exact ⟨hw, coreGood_norm e2 hg, e2, fun p hp => ⟨coreGood_norm (e3 p hp).1 hg, (e3 p hp).1⟩⟩
  prep := by
    intro l l' w w' hg hw h
    have h' : (pure l : PM (DLRep E)) w = .ok (l', w') := h
    rw [pm_pure_iff, Prod.mk.injEq] at h'
    obtain ⟨rfl, rfl⟩ := h'
    exact ⟨hw, hg, trivial, rfl, _, rfl, by simpa [WellFormed, DLRep.norm] using hg.1⟩
  simAcc := by
    intro l w w' d c sim _ h
    rw [simulate_dlrep_precommitment h]
    exact acceptsT_dlrep l
  simLaw := by
    intro t k hk hwf w w' d c sim hu h
    exact simulate_core t k hk hwf hu h

/-- What `get_prover` of a statement without extended parts returns. -/
theorem getProver_core {t t' : Core E} {p : CoreProver E} {d : Dict Int} {w w' : World}
    (hw : WellFormed t) (ht : Torsion t) (h : PTree.getProver t d w = .ok ((some p, t'), w'))
    (X : Key → Int) :
    Primed (fun p => CoreGood p.stmt) p ∧ Honest (fun p _ => CoreGood p.stmt) w'.store p X ∧
      Tree.blank (PTree.stmtOf p) = Tree.blank t := by
  have key : ∀ w, updateSecretValues w.store d = w.store →
      PTree.getProver t d w = .ok ((some p, t'), w') →
      Primed (fun p => CoreGood p.stmt) p ∧ Honest (fun p _ => CoreGood p.stmt) w'.store p X ∧
        Tree.blank (PTree.stmtOf p) = Tree.blank t := by
    intro w hu h
    obtain ⟨e1, _, _, e4⟩ := getProver_law (getLaws_core (E := E) w.store d hu) X t
      (good_of_wf t hw ht) (sat_true t) t' (some p) w w' rfl h
    obtain ⟨f1, f2, f3⟩ := e4 p rfl
    exact ⟨f1, e1 ▸ f2, f3⟩
  cases t with
  | leaf s =>
    simp only [PTree.getProver] at h
    obtain ⟨⟨p?, s'⟩, w1, h1, h⟩ := pm_bind.mp h
    rw [pm_pure_iff, Prod.mk.injEq, Prod.mk.injEq] at h
    obtain ⟨⟨h2, h3⟩, h4⟩ := h
    obtain ⟨e1, e2, e3⟩ := getProver_dlrep h1
    cases p? with
    | none => simp at h2
    | some q =>
      simp only [Option.map_some, Option.some.injEq] at h2
      subst h2
      have hq := coreGood_norm (e3 q rfl).1 ⟨hw, ht⟩
      refine ⟨.leaf q hq, .leaf q X hq, ?_⟩
      simp only [PTree.stmtOf, Tree.blank]
      exact congrArg _ (e3 q rfl).1
  | and s subs =>
    refine key { w with store := updateSecretValues w.store d } (updateSecretValues_idem _ _) ?_
    rw [← h]
    simp only [PTree.getProver, pm_getStore_bind, pm_setStore_bind, updateSecretValues_idem]
  | or s subs =>
    refine key { w with store := updateSecretValues w.store d } (updateSecretValues_idem _ _) ?_
    rw [← h]
    simp only [PTree.getProver, pm_getStore_bind, pm_setStore_bind, updateSecretValues_idem]

theorem commitLeaf_core (σ : Store) (X : Key → Int) :
    CommitLeaf (E := E) (fun p : DLRepProver E => HonestRep σ p X) σ X := by
  intro p k hp hk hwf w w' d com p' hu hw h
  simp only [ProverOps.stmtOf, StmtView.core, Option.some.injEq] at hk
  subst hk
  obtain ⟨e1, e2, e3⟩ := commit_dlrep p hp (by simpa [WellFormed, DLRep.norm] using hwf) hu hw h
  refine ⟨e1, e2, ?_⟩
  obtain ⟨⟨q, hq⟩, ρ, h1, h2⟩ := e3
  refine ⟨⟨q, hq⟩, ρ, h1, fun q hq c w hw => ?_⟩
  obtain ⟨r, w', g1, g2, g3, g4⟩ := h2 q hq c w hw
  refine ⟨r, w', g1, g2, eqns_norm.mpr g3, ?_⟩
  cases g4 with
  | rep s r ρ h => exact .rep _ _ _ h

/-- The leaf provers of the core instance. -/
def CorePL (X : Key → Int) (σ : Store) (p : DLRepProver E) : Prop :=
  WellFormed (.leaf p.stmt) ∧ HonestRep σ p X

theorem precommitLeaf_core (X : Key → Int) :
    PrecommitLeaf (E := E) (CorePL X) (fun σ (p : DLRepProver E) => HonestRep σ p X)
      (fun _ _ => False) (fun _ _ => True) := by
  intro p p' w w' v hp h
  have h' : (pure (Val.none, p) : PM (Val E × DLRepProver E)) w = .ok ((v, p'), w') := h
  rw [pm_pure_iff, Prod.mk.injEq, Prod.mk.injEq] at h'
  obtain ⟨⟨rfl, rfl⟩, rfl⟩ := h'
  refine ⟨Same.refl _ _, fun σ hσ => ?_, acceptsT_dlrep _, ⟨_, rfl, ?_⟩, rfl⟩
  · rw [store_ext fun x => hσ x trivial]; exact hp.2
  · have := hp.1
    simpa [WellFormed, DLRep.norm, ProverOps.stmtOf] using this

theorem corePL_stab (X : Key → Int) : ∀ (p : DLRepProver E) σ σ', CorePL X σ p →
    Same (fun _ => True) σ σ' → CorePL X σ' p := by
  intro p σ σ' h hs
  rw [store_ext fun x => hs x trivial]; exact h

theorem foot_core (p : CoreProver E) (x : Sec) : ¬ Foot (fun _ _ => False) p x := by
  intro h
  induction h with
  | leaf _ _ h => exact h
  | and _ _ _ _ _ _ ih => exact ih
  | or _ _ _ _ _ _ _ ih => exact ih

theorem apart_core (p : CoreProver E) : Apart (fun _ _ => False) (fun _ _ => True) p := by
  have hf := foot_core (E := E)
  induction p using PTree.ind with
  | leaf p => exact .leaf p
  | and s subs ih => exact .and s subs ih fun i j p q x _ _ _ h => (hf p x h).elim
  | or s i stmts sub sims ih => exact .or s i stmts sub sims ih fun x h => (hf sub x h).elim

/-- From `get_prover` to provers that are honest for `X`. -/
theorem honest_core {t t' : Core E} {p : CoreProver E} {d : Dict Int} {w w' : World}
    (hw : WellFormed t) (ht : Torsion t) (h : PTree.getProver t d w = .ok ((some p, t'), w'))
    (X : Key → Int)
    (hX : ∀ q ∈ active p, (∀ x ∈ q.stmt.secretVars,
      Dict.get? w'.store q.secretValues x = some (X (w'.store.key x))) ∧
      Holds w'.store (.leaf q.stmt) X) :
    Primed (CorePL X w'.store) p ∧ Honest (fun p _ => CorePL X w'.store p) w'.store p X ∧
      Tree.blank (PTree.stmtOf p) = Tree.blank t := by
  obtain ⟨e1, e2, e3⟩ := getProver_core hw ht h X
  have g1 := primed_and p e1 hX
  have g2 := honest_and p X e2 hX
  have himp : ∀ q : DLRepProver E, (CoreGood q.stmt ∧ (∀ x ∈ q.stmt.secretVars,
      Dict.get? w'.store q.secretValues x = some (X (w'.store.key x))) ∧
      Holds w'.store (.leaf q.stmt) X) → CorePL X w'.store q :=
    fun q hq => ⟨hq.1.1, hq.2.1, hq.2.2, hq.1.2⟩
  refine ⟨?_, ?_, e3⟩
  · clear e1 e2 e3 g2 h hX
    induction p using PTree.ind with
    | leaf q => cases g1 with | leaf _ h => exact .leaf q (himp q h)
    | and s subs ih => cases g1 with | and _ _ hne h => exact .and s subs hne fun p hp => ih p hp (h p hp)
    | or s i stmts sub sims ih =>
      cases g1 with | or _ _ _ _ _ h1 h2 h3 h => exact .or s i stmts sub sims h1 h2 h3 (ih h)
  · clear e1 e2 e3 g1 h hX
    have hh : ∀ (p : CoreProver E) (Y : Key → Int), Honest (fun p _ => CoreGood p.stmt ∧
        (∀ x ∈ p.stmt.secretVars,
      Dict.get? w'.store p.secretValues x = some (X (w'.store.key x))) ∧
      Holds w'.store (.leaf p.stmt) X) w'.store p Y → Honest (fun p _ => CorePL X w'.store p) w'.store p Y := by
      intro p Y h
      induction h with
      | leaf p Y h => exact .leaf p Y (himp p h)
      | and s subs Y _ ih => exact .and s subs Y ih
      | or s i stmts sub sims Y Y' hi hs _ ih => exact .or s i stmts sub sims Y Y' hi hs ih
    exact hh p X g2

/-! ### Verifiers with secret objects of their own -/

theorem forall₂_append {α β : Type} {R : α → β → Prop} : ∀ {l1 l2 : List α} {m1 m2 : List β},
    l1.length = m1.length → List.Forall₂ R (l1 ++ l2) (m1 ++ m2) →
    List.Forall₂ R l1 m1 ∧ List.Forall₂ R l2 m2
  | [], l2, [], m2, _, h => ⟨.nil, h⟩
  | a :: l1, l2, b :: m1, m2, hl, h => by
    cases h with
    | cons hab h =>
      obtain ⟨h1, h2⟩ := forall₂_append (by simpa using hl) h
      exact ⟨.cons hab h1, h2⟩

theorem forall₂_get {α β : Type} {R : α → β → Prop} : ∀ {l : List α} {m : List β},
    List.Forall₂ R l m → ∀ {i : Nat} {b : β}, m[i]? = some b → ∃ a, l[i]? = some a ∧ R a b
  | _, _, .nil, i, b, h => by simp at h
  | _, _, .cons (l₁ := l) hab h, 0, b, hb => by
    simp only [List.getElem?_cons_zero, Option.some.injEq] at hb
    subst hb; exact ⟨_, by simp, hab⟩
  | _, _, .cons (l₁ := l) hab h, i + 1, b, hb => by
    simp only [List.getElem?_cons_succ] at hb ⊢
    exact forall₂_get h hb

theorem shapeL_get {ts ts' : List (Core E)} (h : shapeL ts' = shapeL ts) :
    ts'.length = ts.length ∧ ∀ (i : Nat) (t : Core E), ts'[i]? = some t →
      ∃ u, ts[i]? = some u ∧ shape t = shape u := by
  induction ts generalizing ts' with
  | nil =>
    cases ts' with
    | nil => simp
    | cons a as => simp [shapeL] at h
  | cons t ts ih =>
    cases ts' with
    | nil => simp [shapeL] at h
    | cons a as =>
      simp only [shapeL, List.cons.injEq] at h
      obtain ⟨e1, e2⟩ := ih h.2
      refine ⟨by simp [e1], fun i u hu => ?_⟩
      cases i with
      | zero => simp at hu; subst hu; exact ⟨t, by simp, h.1⟩
      | succ i => simp at hu ⊢; exact e2 i u hu

theorem secretsL_split {R : Sec → Sec → Prop} : ∀ {ts ts' : List (Core E)}, shapeL ts' = shapeL ts →
    List.Forall₂ R (secretsL ts) (secretsL ts') → ∀ (i : Nat) (t u : Core E), ts[i]? = some t →
    ts'[i]? = some u → List.Forall₂ R (secrets t) (secrets u)
  | [], ts', hs, h, i, t, u, ht, hu => by simp at ht
  | t0 :: ts, [], hs, h, i, t, u, ht, hu => by simp at hu
  | t0 :: ts, u0 :: us, hs, h, i, t, u, ht, hu => by
    simp only [shapeL, List.cons.injEq] at hs
    simp only [secretsL] at h
    obtain ⟨h1, h2⟩ := forall₂_append (coreVars_length t0 u0 hs.1.symm) h
    cases i with
    | zero => simp at ht hu; subst ht; subst hu; exact h1
    | succ i => simp at ht hu; exact secretsL_split hs.2 h2 i t u ht hu

theorem agree_shape {σ σv : Store} {f : Key → Key} {k : Core E} {r : Val E} {ρ : Key → Val E}
    (h : Agree σ k r ρ) : ∀ (kv : Core E), shape kv = shape k →
      List.Forall₂ (fun x xv => f (σv.key xv) = σ.key x) (secrets k) (secrets kv) →
      Agree σv kv r (fun κ => ρ (f κ)) := by
  induction h with
  | rep s r ρ h =>
    intro kv hs hf
    cases kv with
    | leaf s' =>
      refine .rep s' r _ fun i x hx => ?_
      obtain ⟨y, hy, hxy⟩ := forall₂_get hf hx
      rw [h i y hy, hxy]
    | and _ _ => simp [shape] at hs
    | or _ _ => simp [shape] at hs
  | all sim subs r ρ ri hri h ih =>
    intro kv hs hf
    cases kv with
    | leaf s' => simp [shape] at hs
    | or _ _ => simp [shape] at hs
    | and b subs' =>
      simp only [shape, Skel.all.injEq] at hs
      obtain ⟨e1, e2⟩ := shapeL_get hs
      refine .all b subs' r _ ri (fun i hi => hri i (e1 ▸ hi)) fun i t ht => ?_
      obtain ⟨u, hu, htu⟩ := e2 i t ht
      exact ih i u hu t htu (secretsL_split hs hf i u t hu ht)
  | any sim subs r rs ρ ri ρi hrs hri h ih =>
    intro kv hs hf
    cases kv with
    | leaf s' => simp [shape] at hs
    | and _ _ => simp [shape] at hs
    | or b subs' =>
      simp only [shape, Skel.any.injEq] at hs
      obtain ⟨e1, e2⟩ := shapeL_get hs
      refine .any b subs' r rs _ ri (fun i κ => ρi i (f κ)) (fun hne => hrs ?_)
        (fun i hi => hri i (e1 ▸ hi)) fun i t ht => ?_
      · intro h0
        subst h0
        exact hne (List.length_eq_zero_iff.mp e1)
      obtain ⟨u, hu, htu⟩ := e2 i t ht
      exact ih i u hu t htu (secretsL_split hs hf i u t hu ht)

/-- The verifier does not identify secrets that the prover distinguishes: a function from the
verifier's keys to the prover's. -/
theorem refines_fn {l : List Key} {m : List Key} (hl : l.length = m.length)
    (h : ∀ (i j : Nat) (a b a' b' : Key), l[i]? = some a → l[j]? = some b → m[i]? = some a' →
      m[j]? = some b' → a' = b' → a = b) :
    ∃ f : Key → Key, List.Forall₂ (fun a b => f b = a) l m := by
  classical
  refine ⟨fun κ => if h : ∃ (i : Nat), m[i]? = some κ then l[h.choose]?.getD κ else κ, ?_⟩
  rw [List.forall₂_iff_get]
  refine ⟨hl, fun i h1 h2 => ?_⟩
  simp only [List.get_eq_getElem]
  have hex : ∃ j, m[j]? = some m[i] := ⟨i, List.getElem?_eq_getElem h2⟩
  simp only [dif_pos hex]
  have hj := hex.choose_spec
  obtain ⟨hlt, _⟩ := List.getElem?_eq_some_iff.mp hj
  have hlt' : hex.choose < l.length := hl ▸ hlt
  rw [List.getElem?_eq_getElem hlt', Option.getD_some]
  exact h _ i _ _ _ _ (List.getElem?_eq_getElem hlt') (List.getElem?_eq_getElem h1) hj
    (List.getElem?_eq_getElem h2) rfl

theorem checks_shape {σ σv : Store} {k kv : Core E} (hs : shape kv = shape k)
    (hsee : SeesAs σ (secrets k) σv (secrets kv)) {r : Val E} {ρ : Key → Val E}
    (hρ : Agree σ k r ρ) : ∃ ρ', Agree σv kv r ρ' := by
  obtain ⟨hn, hk⟩ := hsee
  have hlen : (secrets k).length = (secrets kv).length := by
    have := hn.1; simpa using this
  obtain ⟨f, hf⟩ := refines_fn (l := (secrets k).map σ.key) (m := (secrets kv).map σv.key)
    (by simpa using hlen) (by
      intro i j a b a' b' h1 h2 h3 h4 he
      simp only [List.getElem?_map, Option.map_eq_some_iff] at h1 h2 h3 h4
      obtain ⟨x, hx, rfl⟩ := h1
      obtain ⟨y, hy, rfl⟩ := h2
      obtain ⟨x', hx', rfl⟩ := h3
      obtain ⟨y', hy', rfl⟩ := h4
      exact hk i j x y x' y' hx hy hx' hy' he)
  refine ⟨_, agree_shape (σv := σv) (f := f) hρ kv hs ?_⟩
  rw [List.forall₂_map_left_iff, List.forall₂_map_right_iff] at hf
  exact hf

theorem preVerification_weaken {σ σv : Store} {k kv : Core E} (hs : shape kv = shape k)
    (hsee : SeesAs σ (secrets k) σv (secrets kv)) {r : Val E}
    (h : preVerification σ k r = .ok ()) : preVerification σv kv r = .ok () := by
  unfold preVerification at h ⊢
  rw [validate_core] at h ⊢
  simp only [bind_ok] at h ⊢
  obtain ⟨⟨b, d⟩, g3, g4⟩ := bind_ok_iff.mp h
  simp only at g4
  split at g4
  · rename_i hb
    subst hb
    obtain ⟨ρ, hρ⟩ := consistency_iff.mp ⟨d, g3⟩
    obtain ⟨d', hd'⟩ := consistency_iff.mpr (checks_shape hs hsee hρ)
    rw [hd']; rfl
  · cases g4

theorem proofId_weaken {σ σv : Store} {k kv : Core E} (hs : shape kv = shape k)
    (hsee : SeesAs σ (secrets k) σv (secrets kv)) : Tree.proofId σv kv = Tree.proofId σ k :=
  ((Tree.proofId_eq_iff (skel_core k) (skel_core kv) (secretVars_core k) (secretVars_core kv)).mpr
    ⟨hs.symm, hsee.1⟩).symm

theorem checkStatement_weaken (env : Env E) {σ σv : Store} {k kv : Core E} (hs : shape kv = shape k)
    (hsee : SeesAs σ (secrets k) σv (secrets kv)) (h : List UInt8) :
    checkStatement env σv kv h = checkStatement env σ k h := by
  unfold checkStatement; rw [proofId_weaken hs hsee]

/-- A proof accepted for `k` by somebody who sees the secrets as in `σ` is accepted for the same
statement built from other secret objects. -/
theorem verify_weaken (env : Env E) {σ σv : Store} {k kv : Core E} (hs : shape kv = shape k)
    (hsee : SeesAs σ (secrets k) σv (secrets kv)) {nizk : NIZK E} {msg : String}
    (h : verify env σ k nizk msg = .ok true) : verify env σv kv nizk msg = .ok true := by
  unfold verify at h ⊢
  rw [fresh_core] at h ⊢
  rcases digest_core σ σv nizk.precommitment hs.symm with ⟨e, h1, h2⟩ | ⟨h1, h2⟩
  · rw [h1] at h; cases h
  · rw [h1] at h
    rw [h2]
    simp only [bind_ok] at h ⊢
    rw [checkStatement_weaken env hs hsee]
    rw [funext (fun c => funext (fun r => recompute_skel kv k c r hs))]
    obtain ⟨id, g1, h⟩ := bind_ok_iff.mp h
    obtain ⟨_, g2, h⟩ := bind_ok_iff.mp h
    rw [g1]
    simp only [bind_ok]
    rw [preVerification_weaken hs hsee g2]
    exact h

/-- The same for the interactive protocol. -/
theorem sigma_weaken (env : Env E) {σ σv : Store} {k kv : Core E} (hs : shape kv = shape k)
    (hsee : SeesAs σ (secrets k) σv (secrets kv)) {p : CoreProver E} {w w' : World}
    (h : sigmaProtocol env σ k p w = .ok (true, w')) : sigmaProtocol env σv kv p w = .ok (true, w') := by
  unfold sigmaProtocol at h ⊢
  rw [fresh_core] at h ⊢
  obtain ⟨⟨v, p1⟩, w1, h1, h⟩ := pm_bind.mp h
  simp only at h
  rw [pm_liftE_bind_iff] at h
  obtain ⟨t1, h2, h⟩ := h
  obtain ⟨⟨⟨hh, com⟩, p2⟩, w2, h3, h⟩ := pm_bind.mp h
  simp only at h
  obtain ⟨c, w3, h4, h⟩ := pm_bind.mp h
  obtain ⟨r, w4, h5, h⟩ := pm_bind.mp h
  rcases process_core σ σv k kv v hs.symm with ⟨e, g1, g2⟩ | ⟨g1, g2⟩
  · rw [g1] at h2; cases h2
  · rw [g1] at h2
    injection h2 with h2
    subst h2
    rw [pm_bind]
    refine ⟨_, _, h1, ?_⟩
    simp only
    rw [pm_liftE_bind_iff]
    refine ⟨kv, g2, ?_⟩
    rw [pm_bind]
    refine ⟨_, _, h3, ?_⟩
    simp only
    rw [pm_bind]
    refine ⟨c, w3, ?_, ?_⟩
    · unfold sendChallenge at h4 ⊢
      rw [checkStatement_weaken env hs hsee]
      rw [pm_liftE_bind_iff] at h4 ⊢
      obtain ⟨id, h6, h4⟩ := h4
      refine ⟨id, h6, ?_⟩
      rw [pm_liftE_bind_iff] at h4 ⊢
      obtain ⟨u, _, h4⟩ := h4
      refine ⟨(), ?_, h4⟩
      cases kv <;> rfl
    · rw [pm_bind]
      refine ⟨r, w4, h5, ?_⟩
      rw [liftE_iff] at h ⊢
      refine ⟨?_, h.2⟩
      have h' := h.1
      unfold verifyResponse at h' ⊢
      obtain ⟨_, h7, h8⟩ := bind_ok_iff.mp h'
      rw [preVerification_weaken hs hsee h7]
      rw [recompute_skel kv k c r hs]
      exact h8

theorem seesAs_refl (σ : Store) (vs : List Sec) : SeesAs σ vs σ vs := by
  refine ⟨⟨rfl, fun i j a b a' b' h1 h2 h3 h4 => ?_⟩, fun i j x y xv yv h1 h2 h3 h4 h => ?_⟩
  · rw [h1] at h3; rw [h2] at h4
    injection h3 with h3; injection h4 with h4
    rw [h3, h4]
  · rw [h1] at h3; rw [h2] at h4
    injection h3 with h3; injection h4 with h4
    rw [h3, h4]; exact h

theorem sees_refl (σ : Store) (vs : List Sec) : Sees σ σ vs :=
  ⟨(seesAs_refl σ vs).1, fun _ _ _ _ h => h⟩

/-! ### Blank statements -/

mutual
theorem shape_blank : ∀ (t u : Core E), Tree.blank t = Tree.blank u →
    shape t = shape u ∧ secrets t = secrets u
  | .leaf s, u, h => by
    cases u with
    | leaf s' =>
      simp only [Tree.blank, Tree.leaf.injEq] at h
      have h1 : s.bases = s'.bases := by have := congrArg DLRep.bases h; exact this
      have h2 : s.secretVars = s'.secretVars := by have := congrArg DLRep.secretVars h; exact this
      have h3 : s.lhs = s'.lhs := by have := congrArg DLRep.lhs h; exact this
      simp [shape, secrets, h1, h2, h3]
    | and _ _ => simp [Tree.blank] at h
    | or _ _ => simp [Tree.blank] at h
  | .and _ ts, u, h => by
    cases u with
    | and _ us =>
      simp only [Tree.blank, Tree.and.injEq, true_and] at h
      obtain ⟨h1, h2⟩ := shapeL_blank ts us h
      simp [shape, secrets, h1, h2]
    | leaf _ => simp [Tree.blank] at h
    | or _ _ => simp [Tree.blank] at h
  | .or _ ts, u, h => by
    cases u with
    | or _ us =>
      simp only [Tree.blank, Tree.or.injEq, true_and] at h
      obtain ⟨h1, h2⟩ := shapeL_blank ts us h
      simp [shape, secrets, h1, h2]
    | leaf _ => simp [Tree.blank] at h
    | and _ _ => simp [Tree.blank] at h
theorem shapeL_blank : ∀ (ts us : List (Core E)), Tree.blankL ts = Tree.blankL us →
    shapeL ts = shapeL us ∧ secretsL ts = secretsL us
  | [], us, h => by
    cases us with
    | nil => simp
    | cons a as => simp [Tree.blankL] at h
  | t :: ts, us, h => by
    cases us with
    | nil => simp [Tree.blankL] at h
    | cons u us =>
      simp only [Tree.blankL, List.cons.injEq] at h
      obtain ⟨h1, h2⟩ := shape_blank t u h.1
      obtain ⟨h3, h4⟩ := shapeL_blank ts us h.2
      simp [shapeL, secretsL, h1, h2, h3, h4]
end

/-- The plain statement behind a prover's statement has the same secrets. -/
theorem core_secrets {t k : Core E} (h : Tree.core t = some k) : secrets k = secrets t ∧ shape k = shape t := by
  obtain ⟨c, h1, h2, h3⟩ := core_core t
  rw [h1] at h
  injection h with h
  subst h
  exact ⟨h3, h2⟩

/-- Honest non-interactive proofs are accepted. -/
theorem core_nizk {t t' : Core E} {p p' : CoreProver E} {d : Dict Int} {w w1 w2 : World}
    (hw : WellFormed t) (ht : Torsion t) (h : PTree.getProver t d w = .ok ((some p, t'), w1))
    (X : Key → Int)
    (hX : ∀ q ∈ active p, (∀ x ∈ q.stmt.secretVars,
      Dict.get? w1.store q.secretValues x = some (X (w1.store.key x))) ∧
      Holds w1.store (.leaf q.stmt) X)
    {env : Env E} {msg : String} {nizk : NIZK E}
    (hn : PTree.getNizkProof env p msg w1 = .ok ((nizk, p'), w2)) :
    verify env w2.store t nizk msg = .ok true ∧ w2.store = w1.store ∧
      Tree.blank (PTree.stmtOf p') = Tree.blank t := by
  obtain ⟨e1, e2, e3⟩ := honest_core hw ht h X hX
  refine ⟨nizk_accepts (corePL_stab X) (precommitLeaf_core X) (fun σ => commitLeaf_core σ X) e1 e2
    (apart_core p) hn (judge_core e3.symm) (validate_core _) (fun k _ => sees_refl _ _), ?_⟩
  unfold PTree.getNizkProof at hn
  obtain ⟨⟨v, p1⟩, w3, hpre, h⟩ := pm_bind.mp hn
  obtain ⟨⟨com, p2⟩, w4, hcom, h⟩ := pm_bind.mp h
  obtain ⟨f2, f3, f4, f5, k, f6, f7, f8⟩ := run_law (corePL_stab X) (precommitLeaf_core X)
    (fun σ => commitLeaf_core σ X) e1 e2 (apart_core p) hpre hcom
  obtain ⟨g1, _⟩ := precommit_law X (corePL_stab X) (precommitLeaf_core X) p p1 w1 w3 v e1 e2
    (apart_core p) hpre
  have hs : w3.store = w1.store := store_ext fun x => g1 x (foot_core p x)
  simp only at h
  rw [pm_getStore_bind, pm_liftE_bind_iff] at h
  obtain ⟨id, hid, h⟩ := h
  rw [pm_liftE_bind_iff] at h
  obtain ⟨c, hc, h⟩ := h
  obtain ⟨r, w5, hr, h⟩ := pm_bind.mp h
  rw [pm_pure_iff, Prod.mk.injEq, Prod.mk.injEq] at h
  obtain ⟨⟨_, hp'⟩, hw2⟩ := h
  obtain ⟨⟨q, hq⟩, ρ, _, hresp⟩ := f8
  obtain ⟨r', w6, i1, i2, i3, i4⟩ := hresp q hq c w4 f2
  rw [hr] at i1
  injection i1 with i1
  rw [Prod.mk.injEq] at i1
  refine ⟨by rw [← hw2, i1.2, i2, hs], ?_⟩
  rw [← hp', f4, f5, e3]

/-- Honest interactive proofs are accepted once the prover has committed. -/
theorem core_sigma {t t' : Core E} {p p1 p2 : CoreProver E} {d : Dict Int} {w w1 w2 w3 : World}
    (hw : WellFormed t) (ht : Torsion t) (h : PTree.getProver t d w = .ok ((some p, t'), w1))
    (X : Key → Int)
    (hX : ∀ q ∈ active p, (∀ x ∈ q.stmt.secretVars,
      Dict.get? w1.store q.secretValues x = some (X (w1.store.key x))) ∧
      Holds w1.store (.leaf q.stmt) X)
    {env : Env E} {v com : Val E} (hpre : PTree.precommit p w1 = .ok ((v, p1), w2))
    (hcom : PTree.internalCommit p1 none w2 = .ok ((com, p2), w3)) :
    ∃ w', sigmaProtocol env w1.store t p w1 = .ok (true, w') := by
  obtain ⟨e1, e2, e3⟩ := honest_core hw ht h X hX
  obtain ⟨g1, _⟩ := precommit_law X (corePL_stab X) (precommitLeaf_core X) p p1 w1 w2 v e1 e2
    (apart_core p) hpre
  have hs : w2.store = w1.store := store_ext fun x => g1 x (foot_core p x)
  refine sigma_accepts (corePL_stab X) (precommitLeaf_core X) (fun σ => commitLeaf_core σ X) e1 e2
    (apart_core p) hpre hcom (judge_core e3.symm) (validate_core _) (fun k _ => hs ▸ sees_refl _ _) ?_
  intro t1 _
  cases t1 <;> rfl

/-- After committing, every challenge is answered correctly. -/
theorem primed_answers {t : Core E} {p p1 p2 : CoreProver E} {w1 w2 w3 : World} {X : Key → Int}
    (e1 : Primed (CorePL X w1.store) p) (e2 : Honest (fun p _ => CorePL X w1.store p) w1.store p X)
    (e3 : Tree.blank (PTree.stmtOf p) = Tree.blank t)
    {v com : Val E} (hpre : PTree.precommit p w1 = .ok ((v, p1), w2))
    (hcom : PTree.internalCommit p1 none w2 = .ok ((com, p2), w3)) (c : Int) (w4 : World)
    (hw4 : w4.store = w3.store) :
    ∃ r w', PTree.computeResponse p2 c w4 = .ok (r, w') ∧ w'.store = w1.store ∧
      verifyResponse w1.store t com c r = .ok true := by
  obtain ⟨g1, _⟩ := precommit_law X (corePL_stab X) (precommitLeaf_core X) p p1 w1 w2 v e1 e2
    (apart_core p) hpre
  have hs : w2.store = w1.store := store_ext fun x => g1 x (foot_core p x)
  obtain ⟨f2, f3, f4, f5, k, f6, f7, f8⟩ := run_law (corePL_stab X) (precommitLeaf_core X)
    (fun σ => commitLeaf_core σ X) e1 e2 (apart_core p) hpre hcom
  obtain ⟨⟨q, hq⟩, ρ, _, hresp⟩ := f8
  obtain ⟨r, w', i1, i2, i3, i4⟩ := hresp q hq c w4 (hw4.trans f2)
  refine ⟨r, w', i1, i2.trans hs, ?_⟩
  obtain ⟨t1, j1, j2, j3, j4, j5⟩ := f3.1 w1.store t (judge_core (e3.symm.trans f5.symm))
  have hkc : shape t = shape k ∧ secrets t = secrets k := by
    have h2 := core_blank (PTree.stmtOf p1)
    rw [f6] at h2
    injection h2 with h2
    rw [f5, e3] at h2
    obtain ⟨k', h3, h4, h5⟩ := core_core t
    rw [core_blank t, ← h2] at h3
    injection h3 with h3
    subst h3
    exact ⟨h4.symm, h5.symm⟩
  unfold verifyResponse
  have hval : preVerification w1.store t r = .ok () := by
    rw [hs] at i4
    obtain ⟨ρ', hρ'⟩ := checks_shape hkc.1 (by rw [hkc.2]; exact seesAs_refl w1.store _) i4
    unfold preVerification
    rw [validate_core, bind_ok]
    obtain ⟨d', hd'⟩ := consistency_iff.mpr ⟨ρ', hρ'⟩
    rw [hd']; rfl
  rw [hval, bind_ok, recompute_skel t k c r hkc.1, (recompute_iff _ _ _ _).mpr i3, bind_ok]
  simp

/-- The same for the heap right after committing. -/
theorem primed_every_challenge {t : Core E} {p p1 p2 : CoreProver E} {w1 w2 w3 : World} {X : Key → Int}
    (e1 : Primed (CorePL X w1.store) p) (e2 : Honest (fun p _ => CorePL X w1.store p) w1.store p X)
    (e3 : Tree.blank (PTree.stmtOf p) = Tree.blank t)
    {v com : Val E} (hpre : PTree.precommit p w1 = .ok ((v, p1), w2))
    (hcom : PTree.internalCommit p1 none w2 = .ok ((com, p2), w3)) (c : Int) :
    ∃ r w', PTree.computeResponse p2 c w3 = .ok (r, w') ∧ w'.store = w1.store ∧
      verifyResponse w1.store t com c r = .ok true := primed_answers e1 e2 e3 hpre hcom c w3 rfl

/-- After committing, every challenge is answered correctly. -/
theorem core_every_challenge {t t' : Core E} {p p1 p2 : CoreProver E} {d : Dict Int} {w w1 w2 w3 : World}
    (hw : WellFormed t) (ht : Torsion t) (h : PTree.getProver t d w = .ok ((some p, t'), w1))
    (X : Key → Int)
    (hX : ∀ q ∈ active p, (∀ x ∈ q.stmt.secretVars,
      Dict.get? w1.store q.secretValues x = some (X (w1.store.key x))) ∧
      Holds w1.store (.leaf q.stmt) X)
    {v com : Val E} (hpre : PTree.precommit p w1 = .ok ((v, p1), w2))
    (hcom : PTree.internalCommit p1 none w2 = .ok ((com, p2), w3)) (c : Int) :
    ∃ r w', PTree.computeResponse p2 c w3 = .ok (r, w') ∧ w'.store = w1.store ∧
      verifyResponse w1.store t com c r = .ok true := by
  obtain ⟨e1, e2, e3⟩ := honest_core hw ht h X hX
  exact primed_every_challenge e1 e2 e3 hpre hcom c

end Zksk
