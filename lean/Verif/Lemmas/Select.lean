import Verif.Lemmas.Progress2

/-! Which clause an or-prover selects. -/

set_option linter.unusedSectionVars false

namespace Zksk

open Spec

variable {E : Type} [AddCommGroup E] [DecidableEq E]

section
variable {L P : Type} [StmtOps E L] [ProverOps E L P]

theorem acts_get : ∀ (ts : List (Tree L)) (d : Dict Int) (i : Nat),
    (PTree.getProverActs ts d : List (PM (Option (PTree E L P) × Tree L)))[i]? =
      ts[i]?.map fun t => PTree.getProver t d
  | [], d, i => by simp [PTree.getProverActs]
  | t :: ts, d, 0 => by simp [PTree.getProverActs]
  | t :: ts, d, i + 1 => by
    simp only [PTree.getProverActs, List.getElem?_cons_succ]
    exact acts_get ts d i

/-- Outcomes of the selection loop; `J` is an invariant of the heap. -/
theorem orLoop_cases {J : Store → Prop} {acts : List (PM (Option (PTree E L P) × Tree L))}
    (hJ : ∀ (i : Nat) act, acts[i]? = some act → ∀ w r w', J w.store → act w = .ok (r, w') → J w'.store) :
    ∀ (fuel : Nat) (possible : List Nat) (stmts stmts' : List (Tree L)) (w w' : World)
      (r : Option (Nat × PTree E L P)), J w.store →
    PTree.orLoop acts fuel possible stmts w = .ok ((r, stmts'), w') →
    J w'.store ∧ stmts'.length = stmts.length ∧
    (∀ i p, r = some (i, p) → i ∈ possible ∧ ∃ act w1 w2 t', acts[i]? = some act ∧ J w1.store ∧
      act w1 = .ok ((some p, t'), w2)) ∧
    (r = none → possible.length ≤ fuel → ∀ i ∈ possible, ∃ act w1 w2 t', acts[i]? = some act ∧
      J w1.store ∧ act w1 = .ok ((none, t'), w2)) := by
  intro fuel
  induction fuel with
  | zero =>
    intro possible stmts stmts' w w' r hw h
    simp only [PTree.orLoop] at h
    rw [pm_pure_iff, Prod.mk.injEq, Prod.mk.injEq] at h
    obtain ⟨⟨rfl, rfl⟩, rfl⟩ := h
    refine ⟨hw, rfl, by simp, fun _ hl i hi => ?_⟩
    have := List.length_pos_of_mem hi
    omega
  | succ fuel ih =>
    intro possible stmts stmts' w w' r hw h
    simp only [PTree.orLoop] at h
    by_cases hemp : possible.isEmpty = true
    · rw [if_pos hemp, pm_pure_iff, Prod.mk.injEq, Prod.mk.injEq] at h
      obtain ⟨⟨rfl, rfl⟩, rfl⟩ := h
      refine ⟨hw, rfl, by simp, fun _ hl i hi => ?_⟩
      simp only [List.isEmpty_iff] at hemp
      subst hemp; simp at hi
    · rw [if_neg hemp] at h
      obtain ⟨i, w1, h1, h⟩ := pm_bind.mp h
      obtain ⟨hi, hs1⟩ := choice_mem h1
      cases ha : acts[i]? with
      | none => simp only [ha] at h; exact (raise_ne.mp h).elim
      | some act =>
        simp only [ha] at h
        obtain ⟨⟨p?, t'⟩, w2, h2, h⟩ := pm_bind.mp h
        have hw1 : J w1.store := hs1 ▸ hw
        have hw2 := hJ i act ha w1 _ w2 hw1 h2
        cases p? with
        | some p =>
          simp only at h
          rw [pm_pure_iff, Prod.mk.injEq, Prod.mk.injEq] at h
          obtain ⟨⟨rfl, rfl⟩, rfl⟩ := h
          refine ⟨hw2, by simp, ?_, by simp⟩
          intro j q hj
          simp only [Option.some.injEq, Prod.mk.injEq] at hj
          obtain ⟨rfl, rfl⟩ := hj
          exact ⟨hi, act, w1, w2, t', ha, hw1, h2⟩
        | none =>
          simp only at h
          obtain ⟨e1, e2, e3, e4⟩ := ih _ _ _ _ _ _ hw2 h
          refine ⟨e1, by simpa using e2, ?_, ?_⟩
          · intro j q hj
            obtain ⟨f1, f2⟩ := e3 j q hj
            exact ⟨List.mem_of_mem_erase f1, f2⟩
          · intro hr hl j hj
            by_cases hji : j = i
            · subst hji; exact ⟨act, w1, w2, t', ha, hw1, h2⟩
            · refine e4 hr ?_ j ((List.mem_erase_of_ne hji).mpr hj)
              rw [List.length_erase_of_mem hi]; omega

/-- The candidates are exactly the unmarked clauses. -/
theorem mem_candidates : ∀ (ts : List (Tree L)) (i j : Nat), j ∈ PTree.candidates ts i ↔
    i ≤ j ∧ ∃ t, ts[j - i]? = some t ∧ t.simulated = false
  | [], i, j => by simp [PTree.candidates]
  | t :: ts, i, j => by
    have ih := mem_candidates ts (i + 1) j
    have key : (i ≤ j ∧ ∃ u, (t :: ts)[j - i]? = some u ∧ u.simulated = false) ↔
        (i = j ∧ t.simulated = false) ∨ (i + 1 ≤ j ∧ ∃ u, ts[j - (i + 1)]? = some u ∧ u.simulated = false) := by
      constructor
      · rintro ⟨hij, u, hu, hs⟩
        by_cases h : i = j
        · subst h
          simp only [Nat.sub_self, List.getElem?_cons_zero, Option.some.injEq] at hu
          subst hu; exact .inl ⟨rfl, hs⟩
        · rw [show j - i = (j - (i + 1)) + 1 by omega, List.getElem?_cons_succ] at hu
          exact .inr ⟨by omega, u, hu, hs⟩
      · rintro (⟨rfl, hs⟩ | ⟨hij, u, hu, hs⟩)
        · exact ⟨le_refl _, t, by simp, hs⟩
        · refine ⟨by omega, u, ?_, hs⟩
          rw [show j - i = (j - (i + 1)) + 1 by omega, List.getElem?_cons_succ]; exact hu
    rw [key, ← ih]
    simp only [PTree.candidates]
    by_cases hs : t.simulated = true
    · rw [if_pos hs]; simp [hs]
    · have hs' : t.simulated = false := by simpa using hs
      rw [if_neg hs, List.mem_cons]
      simp only [hs', and_true]
      constructor
      · rintro (h | h)
        · exact .inl h.symm
        · exact .inr h
      · rintro (h | h)
        · exact .inl h.symm
        · exact .inr h

theorem candidates_length : ∀ (ts : List (Tree L)) (i : Nat), (PTree.candidates ts i).length ≤ ts.length
  | [], i => by simp [PTree.candidates]
  | t :: ts, i => by
    have := candidates_length ts (i + 1)
    simp only [PTree.candidates]
    split
    · simp only [List.length_cons]; omega
    · simp only [List.length_cons]; omega

/-- What `get_prover` of a disjunction returns, for clauses of any kind. -/
theorem getProver_or_cases {J : Store → Prop} {s : Bool} {subs : List (Tree L)} {d : Dict Int}
    (hJ : ∀ t ∈ subs, ∀ w r w', J w.store →
      (PTree.getProver t d : PM (Option (PTree E L P) × Tree L)) w = .ok (r, w') → J w'.store)
    {w w' : World} {p? : Option (PTree E L P)} {t' : Tree L} (hw : J (updateSecretValues w.store d))
    (h : PTree.getProver (.or s subs) d w = .ok ((p?, t'), w')) :
    (s = true ∧ p? = none) ∨
    (s = false ∧ p? = none ∧ ∀ t ∈ subs, t.simulated = false → ∃ w1 w2 t1, J w1.store ∧
      (PTree.getProver t d : PM (Option (PTree E L P) × Tree L)) w1 = .ok ((none, t1), w2)) ∨
    (s = false ∧ ∃ (i : Nat) (t : Tree L) (stmts : List (Tree L)) (sub : PTree E L P) (sims : List (Sim E))
      (w1 w2 : World) (t1 : Tree L), subs[i]? = some t ∧ t.simulated = false ∧ J w1.store ∧
      PTree.getProver t d w1 = .ok ((some sub, t1), w2) ∧ p? = some (.or false i stmts sub sims)) := by
  simp only [PTree.getProver] at h
  rw [pm_getStore_bind, pm_setStore_bind] at h
  cases s with
  | true =>
    simp only [if_true] at h
    rw [pm_pure_iff, Prod.mk.injEq, Prod.mk.injEq] at h
    exact .inl ⟨rfl, h.1.1.symm⟩
  | false =>
    simp only [Bool.false_eq_true, if_false] at h
    obtain ⟨⟨r, subs'⟩, w1, h1, h⟩ := pm_bind.mp h
    have hacts : ∀ (i : Nat) act, (PTree.getProverActs subs d :
        List (PM (Option (PTree E L P) × Tree L)))[i]? = some act →
        ∃ t, subs[i]? = some t ∧ act = PTree.getProver t d := by
      intro i act ha
      rw [acts_get] at ha
      cases hi : subs[i]? with
      | none => simp [hi] at ha
      | some t => simp only [hi, Option.map_some, Option.some.injEq] at ha; exact ⟨t, rfl, ha.symm⟩
    obtain ⟨_, _, e3, e4⟩ := orLoop_cases (J := J) (fun i act ha w r w' hw hr => by
      obtain ⟨t, ht, rfl⟩ := hacts i act ha
      exact hJ t (List.mem_of_getElem? ht) w r w' hw hr) _ _ _ _ _ _ _ hw h1
    refine .inr ?_
    cases r with
    | none =>
      simp only at h
      rw [pm_pure_iff, Prod.mk.injEq, Prod.mk.injEq] at h
      refine .inl ⟨rfl, h.1.1.symm, fun t ht hs => ?_⟩
      obtain ⟨i, hi⟩ := List.mem_iff_getElem?.mp ht
      obtain ⟨act, w2, w3, t2, f1, f2, f3⟩ := e4 rfl (le_refl _) i
        ((mem_candidates subs 0 i).mpr ⟨Nat.zero_le _, t, by simpa using hi, hs⟩)
      obtain ⟨u, hu, rfl⟩ := hacts i act f1
      rw [hi] at hu; cases hu
      exact ⟨w2, w3, t2, f2, f3⟩
    | some ip =>
      obtain ⟨i, sub⟩ := ip
      simp only at h
      obtain ⟨⟨stmts, sims⟩, w2, h2, h⟩ := pm_bind.mp h
      rw [pm_pure_iff, Prod.mk.injEq, Prod.mk.injEq] at h
      obtain ⟨g1, act, w3, w4, t2, g2, g3, g4⟩ := e3 i sub rfl
      obtain ⟨u, hu, rfl⟩ := hacts i act g2
      obtain ⟨_, v, hv, hs⟩ := (mem_candidates subs 0 i).mp g1
      rw [Nat.sub_zero, hu] at hv; cases hv
      exact .inr ⟨rfl, i, u, stmts, sub, sims, w3, w4, t2, hu, hs, g3, g4, h.1.1.symm⟩

end

/-! ### Plain statements -/

/-- As many secrets as bases. -/
def EvenRep (s : DLRep E) : Prop := s.secretVars.length = s.bases.length

theorem evenRep_norm {s s' : DLRep E} (h : s'.norm = s.norm) (hg : EvenRep s) : EvenRep s' := by
  have h1 : s'.bases = s.bases := by have := congrArg DLRep.bases h; exact this
  have h2 : s'.secretVars = s.secretVars := by have := congrArg DLRep.secretVars h; exact this
  unfold EvenRep; rw [h1, h2]; exact hg

theorem good_even : ∀ (t : Core E), WellFormed t → Good EvenRep t := by
  intro t
  induction t using Tree.ind with
  | leaf s => intro h; exact .leaf s h
  | and s subs ih => intro h; exact .and s subs h.1 fun t ht => ih t ht (wellFormedL_iff.mp h.2 t ht)
  | or s subs ih => intro h; exact .or s subs h.1 fun t ht => ih t ht (wellFormedL_iff.mp h.2 t ht)

theorem getLaws_even (σ : Store) (d : Dict Int) (hu : updateSecretValues σ d = σ) :
    GetLaws (E := E) (EvenRep (E := E)) (fun _ => True) (fun _ => True)
      (fun _ : DLRepProver E => True) σ d where
  upd := hu
  get := by
    intro l l' p? w w' hg _ hw h
    obtain ⟨e1, e2, e3⟩ := getProver_dlrep h
    subst e1
    exact ⟨hw, evenRep_norm e2 hg, e2, fun p hp => ⟨trivial, (e3 p hp).1⟩⟩
  prep := by
    intro l l' w w' hg hw h
    have h' : (pure l : PM (DLRep E)) w = .ok (l', w') := h
    rw [pm_pure_iff, Prod.mk.injEq] at h'
    obtain ⟨rfl, rfl⟩ := h'
    exact ⟨hw, hg, trivial, rfl, _, rfl, by simpa [WellFormed, DLRep.norm, EvenRep] using hg⟩
  simAcc := by
    intro l w w' d c sim _ h
    rw [simulate_dlrep_precommitment h]
    exact acceptsT_dlrep l
  simLaw := by
    intro t k hk hwf w w' d c sim hu h
    exact simulate_core t k hk hwf hu h

/-- Heap and shape after `get_prover`. -/
theorem getProver_frame {σ : Store} {d : Dict Int} (hu : updateSecretValues σ d = σ) {t t' : Core E}
    (hwf : WellFormed t) {p? : Option (CoreProver E)} {w w' : World} (hw : w.store = σ)
    (h : PTree.getProver t d w = .ok ((p?, t'), w')) :
    w'.store = σ ∧ Tree.blank t' = Tree.blank t ∧
      ∀ p, p? = some p → Tree.blank (PTree.stmtOf p) = Tree.blank t := by
  obtain ⟨h1, _, h2, h3⟩ := getProver_law (getLaws_even σ d hu) (fun _ => 0) t (good_even t hwf)
    (sat_true t) t' p? w w' hw h
  exact ⟨h1, h2, fun p hp => (h3 p hp).2.2⟩

theorem given_update {σ : Store} {d : Dict Int} {s : DLRep E} {x : Sec} :
    (Dict.get? σ (Dict.update σ s.secretValues d) x).isSome = (given σ d s x).isSome := by
  unfold given
  have : ∀ (e v : Dict Int), (Dict.get? σ (Dict.update σ v e) x).isSome =
      ((Dict.get? σ e x).or (Dict.get? σ v x)).isSome := by
    intro e
    induction e with
    | nil => intro v; simp [Dict.update, Dict.get?]
    | cons kv e ih =>
      intro v
      rw [Dict.get?_update_cons, ih, Dict.get?_set]
      simp only [Dict.get?]
      by_cases hk : σ.key kv.1 = σ.key x
      · simp [hk]
      · simp [hk]
  exact this d s.secretValues

/-- A representation is declined iff some secret has no value. -/
theorem getProver_leaf_none {s s' : DLRep E} {d : Dict Int} {w w' : World} (hne : s.secretVars ≠ [])
    {p? : Option (DLRepProver E)} (h : DLRepProver.getProver s d w = .ok ((p?, s'), w')) :
    p? = none ↔ ∃ x ∈ s.secretVars, given w.store d s x = none := by
  unfold DLRepProver.getProver at h
  rw [pm_getStore_bind] at h
  by_cases hc : (Dict.update w.store s.secretValues d).isEmpty = true ∨
      (s.secretVars.any fun x => !Dict.has w.store (Dict.update w.store s.secretValues d) x) = true
  · have hc' : ((Dict.update w.store s.secretValues d).isEmpty ||
      s.secretVars.any fun x => !Dict.has w.store (Dict.update w.store s.secretValues d) x) = true := by
      simpa using hc
    simp only [hc', if_true] at h
    rw [pm_pure_iff, Prod.mk.injEq, Prod.mk.injEq] at h
    obtain ⟨⟨rfl, _⟩, _⟩ := h
    simp only [true_iff]
    have key : ∃ x ∈ s.secretVars, Dict.has w.store (Dict.update w.store s.secretValues d) x = false := by
      rcases hc with hc | hc
      · obtain ⟨x, l, hl⟩ := List.exists_cons_of_ne_nil hne
        refine ⟨x, by rw [hl]; simp, ?_⟩
        rw [List.isEmpty_iff] at hc
        rw [hc]; rfl
      · simpa using hc
    obtain ⟨x, hx, hf⟩ := key
    refine ⟨x, hx, ?_⟩
    unfold Dict.has at hf
    rw [given_update] at hf
    simpa using hf
  · have hc' : ((Dict.update w.store s.secretValues d).isEmpty ||
      s.secretVars.any fun x => !Dict.has w.store (Dict.update w.store s.secretValues d) x) = false := by
      rw [Bool.eq_false_iff]; simpa using hc
    simp only [hc', Bool.false_eq_true, if_false] at h
    rw [pm_pure_iff, Prod.mk.injEq, Prod.mk.injEq] at h
    obtain ⟨⟨rfl, _⟩, _⟩ := h
    simp only [reduceCtorEq, false_iff, not_exists, not_and]
    intro x hx hn
    refine hc (.inr ?_)
    rw [List.any_eq_true]
    refine ⟨x, hx, ?_⟩
    unfold Dict.has
    rw [given_update, hn]; rfl

theorem simulated_iff {t : Core E} : t.simulated = false ↔ unmarked t := by
  cases t <;> exact Iff.rfl

theorem secretVars_ne_of_solid {s : DLRep E} (h : Solid (.leaf s)) : s.secretVars ≠ [] := by
  rintro h0
  have h1 := h.1
  rw [h0] at h1
  exact h.2.1 (List.length_eq_zero_iff.mp h1.symm)

/-- Whether a prover is returned depends on the heap and the values given only. -/
theorem getProver_none_iff {σ : Store} {d : Dict Int} (hu : updateSecretValues σ d = σ) :
    ∀ (t : Core E), Solid t → ∀ (p? : Option (CoreProver E)) (t' : Core E) (w w' : World), w.store = σ →
    PTree.getProver t d w = .ok ((p?, t'), w') → (p? = none ↔ Declines σ d t) := by
  intro t
  induction t using Tree.ind with
  | leaf s =>
    intro hs p? t' w w' hw h
    simp only [PTree.getProver] at h
    obtain ⟨⟨q?, s'⟩, w1, h1, h⟩ := pm_bind.mp h
    rw [pm_pure_iff, Prod.mk.injEq, Prod.mk.injEq] at h
    have := getProver_leaf_none (secretVars_ne_of_solid hs) h1
    rw [← h.1.1, Option.map_eq_none_iff, this, hw]
    constructor
    · rintro ⟨x, hx, hg⟩; exact .rep s x hx hg
    · intro hd; cases hd with
      | rep _ x hx hg => exact ⟨x, hx, hg⟩
  | and b subs ih =>
    intro hs p? t' w w' hw h
    simp only [PTree.getProver] at h
    rw [pm_getStore_bind, pm_setStore_bind] at h
    cases b with
    | true =>
      simp only [if_true] at h
      rw [pm_pure_iff, Prod.mk.injEq, Prod.mk.injEq] at h
      exact ⟨fun _ => .and subs, fun _ => h.1.1.symm⟩
    | false =>
      simp only [Bool.false_eq_true, if_false] at h
      obtain ⟨⟨ps, subs'⟩, w1, h1, h⟩ := pm_bind.mp h
      cases ha : PTree.allSome ps with
      | none => simp only [ha] at h; exact (raise_ne.mp h).elim
      | some ps' =>
        simp only [ha] at h
        rw [pm_pure_iff, Prod.mk.injEq, Prod.mk.injEq] at h
        rw [← h.1.1]
        simp only [reduceCtorEq, false_iff]
        intro hd; cases hd
  | or b subs ih =>
    intro hs p? t' w w' hw h
    have hwf := wf_of_solid hs
    rcases getProver_or_cases (J := fun τ => τ = σ) (fun t ht w r w' hw hr => by
        obtain ⟨r1, r2⟩ := r
        exact (getProver_frame hu (wellFormedL_iff.mp hwf.2 t ht) hw hr).1)
      (by rw [hw, hu]) h with ⟨rfl, h1⟩ | ⟨rfl, h1, h2⟩ | ⟨rfl, i, u, stmts, sub, sims, w1, w2, t1, h1, h2, h3, h4, h5⟩
    · exact ⟨fun _ => .marked subs, fun _ => h1⟩
    · refine ⟨fun _ => .any subs fun t ht hm => ?_, fun _ => h1⟩
      obtain ⟨w1, w2, t1, g1, g2⟩ := h2 t ht (simulated_iff.mpr hm)
      exact (ih t ht (solidL_iff.mp hs.2 t ht) none t1 w1 w2 g1 g2).mp rfl
    · subst h5
      simp only [reduceCtorEq, false_iff]
      intro hd
      cases hd with
      | any _ hd =>
        have hm := List.mem_of_getElem? h1
        have := (ih u hm (solidL_iff.mp hs.2 u hm) (some sub) t1 w1 w2 h3 h4).mpr
          (hd u hm (simulated_iff.mp h2))
        cases this

/-- `get_prover` of a composed statement starts by writing the values into the heap. -/
theorem getProver_heap {t : Core E} (ht : ∀ s, t ≠ .leaf s) (d : Dict Int) (w : World) :
    (PTree.getProver t d : PM (Option (CoreProver E) × Core E)) w =
      PTree.getProver t d { w with store := heapFor w.store d t } := by
  rw [heapFor_eq _ _ ht]
  cases t with
  | leaf s => exact (ht s rfl).elim
  | and b subs =>
    simp only [PTree.getProver]
    rw [pm_getStore_bind, pm_setStore_bind, pm_getStore_bind, pm_setStore_bind, updateSecretValues_idem]
  | or b subs =>
    simp only [PTree.getProver]
    rw [pm_getStore_bind, pm_setStore_bind, pm_getStore_bind, pm_setStore_bind, updateSecretValues_idem]

theorem getProver_none_iff_top {d : Dict Int} {t : Core E} (hs : Solid t) {p? : Option (CoreProver E)}
    {t' : Core E} {w w' : World} (h : PTree.getProver t d w = .ok ((p?, t'), w')) :
    (p? = none ↔ Declines (heapFor w.store d t) d t) := by
  by_cases hl : ∃ s, t = .leaf s
  · obtain ⟨s, rfl⟩ := hl
    simp only [PTree.getProver] at h
    obtain ⟨⟨q?, s'⟩, w1, h1, h⟩ := pm_bind.mp h
    rw [pm_pure_iff, Prod.mk.injEq, Prod.mk.injEq] at h
    have := getProver_leaf_none (secretVars_ne_of_solid hs) h1
    rw [← h.1.1, Option.map_eq_none_iff, this]
    constructor
    · rintro ⟨x, hx, hg⟩; exact .rep s x hx hg
    · intro hd; cases hd with
      | rep _ x hx hg => exact ⟨x, hx, hg⟩
  · have hl' : ∀ s, t ≠ .leaf s := fun s hs => hl ⟨s, hs⟩
    rw [getProver_heap hl'] at h
    refine getProver_none_iff ?_ t hs p? t' _ w' rfl h
    rw [heapFor_eq _ _ hl']
    exact updateSecretValues_idem _ _

/-- For statements without conjunctions `get_prover` never raises. -/
theorem getProver_andFree {σ : Store} {d : Dict Int} (hu : updateSecretValues σ d = σ) :
    ∀ (t : Core E), AndFree t → Solid t → ∀ w : World, w.store = σ →
    ∃ p? t' w', (PTree.getProver t d : PM (Option (CoreProver E) × Core E)) w = .ok ((p?, t'), w') := by
  intro t
  induction t using Tree.ind with
  | leaf s =>
    intro _ hs w hw
    have : ∃ r, (ProverOps.getProver s d : PM (Option (DLRepProver E) × DLRep E)) w = .ok (r, w) := by
      show ∃ r, DLRepProver.getProver s d w = .ok (r, w)
      unfold DLRepProver.getProver
      rw [pm_getStore_bind]
      split
      · exact ⟨_, rfl⟩
      · exact ⟨_, rfl⟩
    obtain ⟨r, hr⟩ := this
    refine ⟨r.1.map .leaf, .leaf r.2, w, ?_⟩
    simp only [PTree.getProver]
    rw [pm_bind_eq hr]
    rfl
  | and b subs ih => intro ha; cases ha
  | or b subs ih =>
    intro ha hs w hw
    cases ha with
    | any _ _ ha =>
    simp only [PTree.getProver]
    rw [pm_getStore_bind, pm_setStore_bind]
    cases b with
    | true => exact ⟨_, _, _, rfl⟩
    | false =>
      simp only [Bool.false_eq_true, if_false]
      have hwf := wf_of_solid hs
      have loop : ∀ (fuel : Nat) (possible : List Nat) (us : List (Core E)) (w : World), w.store = σ →
          (∀ i ∈ possible, i < subs.length) → Tree.blankL us = Tree.blankL subs →
          ∃ r us' w', PTree.orLoop (PTree.getProverActs subs d : List (PM (Option (CoreProver E) × Core E)))
            fuel possible us w = .ok ((r, us'), w') ∧ Tree.blankL us' = Tree.blankL subs := by
        intro fuel
        induction fuel with
        | zero => intro possible us w _ _ hb; exact ⟨none, us, w, rfl, hb⟩
        | succ fuel ihf =>
          intro possible us w hw hc hb
          simp only [PTree.orLoop]
          by_cases hemp : possible.isEmpty = true
          · rw [if_pos hemp]; exact ⟨none, us, w, rfl, hb⟩
          · rw [if_neg hemp]
            obtain ⟨i, w1, h1⟩ := choice_progress (possible := possible) (fun h => hemp (by rw [h]; rfl)) w
            obtain ⟨hi, hs1⟩ := choice_mem h1
            rw [pm_bind_eq h1]
            have hlt := hc i hi
            have hget : subs[i]? = some subs[i] := List.getElem?_eq_getElem hlt
            have hm : subs[i] ∈ subs := List.getElem_mem hlt
            rw [acts_get, hget]
            simp only [Option.map_some]
            obtain ⟨p?, t', w2, h2⟩ := ih subs[i] hm (ha _ hm) (solidL_iff.mp hs.2 _ hm) w1 (hs1.trans hw)
            obtain ⟨e1, e2, _⟩ := getProver_frame hu (wellFormedL_iff.mp hwf.2 _ hm) (hs1.trans hw) h2
            rw [pm_bind_eq h2]
            have hb' : Tree.blankL (us.set i t') = Tree.blankL subs := by
              rw [Tree.blankL_eq] at hb ⊢
              rw [List.map_set, hb, e2, Tree.blankL_eq]
              refine List.ext_getElem? fun j => ?_
              rw [List.getElem?_set]
              split
              · rename_i hij; subst hij
                split
                · simp [hget]
                · rename_i hlt'
                  simp only [List.length_map] at hlt'
                  exact absurd hlt hlt'
              · rfl
            cases p? with
            | some p => exact ⟨_, _, _, rfl, hb'⟩
            | none =>
              simp only
              exact ihf _ _ w2 e1 (fun j hj => hc j (List.mem_of_mem_erase hj)) hb'
      obtain ⟨r, us', w1, h1, hb⟩ := loop (PTree.candidates subs 0).length (PTree.candidates subs 0) subs
        { w with store := updateSecretValues w.store d } (by simp only [hw, hu]) (by
          intro i hi
          obtain ⟨_, u, h, _⟩ := (mem_candidates subs 0 i).mp hi
          exact (List.getElem?_eq_some_iff.mp (by simpa using h)).1) rfl
      rw [pm_bind_eq h1]
      cases r with
      | none => exact ⟨_, _, _, rfl⟩
      | some ip =>
        obtain ⟨i, p⟩ := ip
        simp only
        obtain ⟨hlen, hbs⟩ := blankL_get hb.symm
        obtain ⟨sims, w2, h2, _⟩ := setup_progress i us' 0 (fun u hu' => by
          obtain ⟨u', hu2, hbl⟩ := hbs u hu'
          exact good_blank (good_of_solid u' (solidL_iff.mp hs.2 u' hu2)) u hbl.symm) w1
        rw [pm_bind_eq h2]
        exact ⟨_, _, _, rfl⟩

end Zksk
