import Verif.SpecWitness
import Verif.Lemmas.TwinRun

/-! Provers that are in the same position behave in the same way. -/

set_option linter.unusedSectionVars false

namespace Zksk.Peer

open Spec

variable {E : Type} [AddCommGroup E] [DecidableEq E]

variable {M : Nat} {σ σ' : Store} {X X' : Key → Int} {d d' : Dict Int} {V : List Sec}

/-! ### Representations -/

theorem get_rep (σ : Store) (s : DLRep E) (d : Dict Int) : ∃ x : Option (DLRepProver E) × DLRep E,
    ∀ r, DLRepProver.getProver s d ⟨σ, r⟩ = .ok (x, ⟨σ, r⟩) := by
  unfold DLRepProver.getProver
  by_cases h : ((Dict.update σ s.secretValues d).isEmpty || s.secretVars.any (fun x =>
      !(Dict.has σ (Dict.update σ s.secretValues d) x))) = true
  · refine ⟨(none, { s with secretValues := Dict.update σ s.secretValues d, simulated := true }), fun r => ?_⟩
    · rw [pm_getStore_bind]
      simp only
      rw [if_pos h]
      rfl
  · refine ⟨(some ⟨{ s with secretValues := Dict.update σ s.secretValues d, simulated := true },
        Dict.update σ s.secretValues d, none⟩,
        { s with secretValues := Dict.update σ s.secretValues d, simulated := true }), fun r => ?_⟩
    · rw [pm_getStore_bind]
      simp only
      rw [if_neg h]
      rfl

theorem get_rep_some {s : DLRep E} (hs : SolidRep s) (ht : Torsion (.leaf s)) (hu : d.Uniq σ)
    (hv : ∀ x ∈ s.secretVars, given σ d s x = some (X (σ.key x))) (hh : Holds σ (.leaf s) X) :
    ∃ p s', (∀ r, DLRepProver.getProver s d ⟨σ, r⟩ = .ok ((some p, s'), ⟨σ, r⟩)) ∧ FitRep σ X p ∧
      p.stmt.norm = s.norm ∧ s'.norm = s.norm := by
  obtain ⟨x, hx⟩ := get_rep σ s d
  obtain ⟨p, s', h⟩ := getProver_progress_dlrep hs (w := ⟨σ, fun _ => 0⟩) (d := d) hu
    (fun x hx => by rw [hv x hx]; rfl)
  have e : x = (some p, s') := by
    have := hx fun _ => 0
    rw [h] at this
    injection this with this
    injection this with this _
    exact this.symm
  subst e
  obtain ⟨e1, e2, e3⟩ := getProver_dlrep h
  obtain ⟨f1, f2, f3⟩ := e3 p rfl
  obtain ⟨g1, g2⟩ := solidRep_norm f1 ⟨hs, ht⟩
  obtain ⟨n1, n2, n3⟩ := norm_fields f1
  refine ⟨p, s', hx, ⟨⟨g1, g2⟩, g1.1, ?_, ?_, g2⟩, f1, e2⟩
  · intro x hx
    rw [n3] at hx
    have := hv x hx
    rw [f3]
    unfold given at this
    cases hdx : Dict.get? σ d x with
    | some v => rw [hdx] at this; rw [Dict.get?_update_uniq hu _ x v hdx]; exact this
    | none => rw [hdx] at this; rw [Dict.get?_update_of_none _ hdx]; exact this
  · cases hh with
    | rep _ _ i1 i2 =>
      refine .rep _ _ ?_ ?_
      · rw [n1, n2]; exact i1
      · rw [n1, n2, n3]; exact i2

theorem get_rep_none {s : DLRep E} {x : Sec} (hx : x ∈ s.secretVars) (h : given σ d s x = none) :
    ∃ s', (∀ r, DLRepProver.getProver s d ⟨σ, r⟩ = .ok ((none, s'), ⟨σ, r⟩)) ∧ s'.norm = s.norm := by
  refine ⟨{ s with secretValues := Dict.update σ s.secretValues d, simulated := true }, fun r => ?_, rfl⟩
  unfold DLRepProver.getProver
  rw [pm_getStore_bind]
  simp only
  rw [if_pos]
  · rfl
  · rw [Bool.or_eq_true, List.any_eq_true]
    right
    refine ⟨x, hx, ?_⟩
    unfold given at h
    rw [Option.or_eq_none_iff] at h
    simp [Dict.has, Dict.get?_update_of_none _ h.1, h.2]

/-! ### Selection of clauses -/

/-- Results of `get_prover` of people in the same position. -/
def Got (σ : Store) (X : Key → Int) (σ' : Store) (X' : Key → Int) (b : Bool) (t : Core E)
    (a : Option (CoreProver E) × Core E) (τ : Store) (a' : Option (CoreProver E) × Core E) (τ' : Store) : Prop :=
  (τ = σ ∧ τ' = σ') ∧ Tree.blank a.2 = Tree.blank t ∧ Tree.blank a'.2 = Tree.blank t ∧
    (b = true → ∃ p p', a.1 = some p ∧ a'.1 = some p' ∧ Mates σ X σ' X' t p p') ∧
    (b = false → a.1 = none ∧ a'.1 = none)

theorem choice_same {possible : List Nat} (h : possible ≠ []) :
    Twin M (fun i τ j τ' => (i = j ∧ i ∈ possible) ∧ τ = σ ∧ τ' = σ')
      (starting σ (PTree.choice possible)) (starting σ' (PTree.choice possible)) := by
  unfold PTree.choice
  refine .bind (Twin.drawSame (m := possible.length) (by simpa using h)) ?_
  rintro a τ b τ' ⟨⟨rfl, rfl, rfl⟩, h0, h1⟩
  have hlt : a.toNat < possible.length := by omega
  rw [List.getElem?_eq_getElem hlt]
  exact .pure ⟨⟨rfl, List.getElem_mem _⟩, rfl, rfl⟩

theorem acts_get (d : Dict Int) : ∀ (ts : List (Core E)) (i : Nat) (t : Core E), ts[i]? = some t →
    (PTree.getProverActs ts d : List (PM (Option (CoreProver E) × Core E)))[i]? = some (PTree.getProver t d)
  | [], _, _, h => by simp at h
  | u :: ts, 0, t, h => by
    simp only [List.getElem?_cons_zero, Option.some.injEq] at h
    subst h
    simp [PTree.getProverActs]
  | u :: ts, i + 1, t, h => by
    simp only [List.getElem?_cons_succ] at h
    simp only [PTree.getProverActs, List.getElem?_cons_succ]
    exact acts_get d ts i t h

theorem loop_twin {M : Nat} {σ σ' : Store} {X X' : Key → Int} {d d' : Dict Int} {can : Nat → Bool}
    {ts ts' : List (Core E)} : ∀ (fuel : Nat) (possible : List Nat) (us us' : List (Core E)),
    possible.length ≤ fuel →
    (∀ i ∈ possible, ∃ t t', ts[i]? = some t ∧ ts'[i]? = some t' ∧
      Twin M (Got σ X σ' X' (can i) t) (starting σ (PTree.getProver t d)) (starting σ' (PTree.getProver t' d'))) →
    Tree.blankL us = Tree.blankL ts → Tree.blankL us' = Tree.blankL ts →
    Twin M (fun (a : Option (Nat × CoreProver E) × List (Core E)) τ
        (a' : Option (Nat × CoreProver E) × List (Core E)) τ' =>
        (τ = σ ∧ τ' = σ') ∧ Tree.blankL a.2 = Tree.blankL ts ∧ Tree.blankL a'.2 = Tree.blankL ts ∧
        ((∃ i ∈ possible, can i = true) → ∃ i t p p', a.1 = some (i, p) ∧ a'.1 = some (i, p') ∧
          ts[i]? = some t ∧ Mates σ X σ' X' t p p') ∧
        ((∀ i ∈ possible, can i = false) → a.1 = none ∧ a'.1 = none))
      (starting σ (PTree.orLoop (PTree.getProverActs ts d) fuel possible us))
      (starting σ' (PTree.orLoop (PTree.getProverActs ts' d') fuel possible us'))
  | 0, possible, us, us', hf, h, hb, hb' => by
    have : possible = [] := List.length_eq_zero_iff.mp (by omega)
    subst this
    exact .pure ⟨⟨rfl, rfl⟩, hb, hb', by simp, by simp⟩
  | fuel + 1, possible, us, us', hf, h, hb, hb' => by
    simp only [PTree.orLoop]
    cases hp : possible with
    | nil => exact .pure ⟨⟨rfl, rfl⟩, hb, hb', by simp, by simp⟩
    | cons j js =>
    rw [← hp]
    have hne : possible ≠ [] := by simp [hp]
    rw [if_neg (by simpa using hne), if_neg (by simpa using hne)]
    refine .bind (choice_same hne) ?_
    rintro i τ i' τ' ⟨⟨rfl, hi⟩, rfl, rfl⟩
    obtain ⟨t, t', ht, ht', hT⟩ := h i hi
    rw [acts_get d ts i t ht, acts_get d' ts' i t' ht']
    refine .bind hT ?_
    rintro ⟨p?, t1⟩ τ ⟨p?', t1'⟩ τ' ⟨⟨rfl, rfl⟩, h1, h2, h3, h4⟩
    simp only at h1 h2 h3 h4
    cases hc : can i with
    | true =>
      obtain ⟨p, p', rfl, rfl, hm⟩ := h3 hc
      refine .pure ⟨⟨rfl, rfl⟩, blankL_set hb ht h1, blankL_set hb' ht h2, fun _ => ⟨i, t, p, p', rfl, rfl, ht, hm⟩,
        fun hn => ?_⟩
      rw [hn i hi] at hc
      cases hc
    | false =>
      obtain ⟨rfl, rfl⟩ := h4 hc
      have hlen : (possible.erase i).length ≤ fuel := by rw [List.length_erase_of_mem hi]; omega
      refine (loop_twin fuel (possible.erase i) _ _ hlen (fun k hk => h k (List.mem_of_mem_erase hk))
        (blankL_set hb ht h1) (blankL_set hb' ht h2)).mono ?_
      rintro a τ a' τ' ⟨g1, g2, g3, g4, g5⟩
      refine ⟨g1, g2, g3, fun hex => g4 ?_, fun hn => g5 fun k hk => hn k (List.mem_of_mem_erase hk)⟩
      obtain ⟨k, hk, hck⟩ := hex
      have hki : k ≠ i := by
        rintro rfl
        rw [hc] at hck
        cases hck
      exact ⟨k, (List.mem_erase_of_ne hki).mpr hk, hck⟩

theorem simulated_iff (t : Core E) : t.simulated = false ↔ unmarked t := by
  cases t <;> exact Iff.rfl

theorem mem_candidates : ∀ (ts : List (Core E)) (n i : Nat),
    i ∈ PTree.candidates ts n ↔ ∃ j t, i = n + j ∧ ts[j]? = some t ∧ unmarked t
  | [], n, i => by simp [PTree.candidates]
  | t :: ts, n, i => by
    have ih := mem_candidates ts (n + 1) i
    have hr : (∃ j u, i = n + j ∧ (t :: ts)[j]? = some u ∧ unmarked u) ↔
        (i = n ∧ unmarked t) ∨ ∃ j u, i = n + 1 + j ∧ ts[j]? = some u ∧ unmarked u := by
      constructor
      · rintro ⟨j, u, h1, h2, h3⟩
        cases j with
        | zero =>
          simp only [List.getElem?_cons_zero, Option.some.injEq] at h2
          subst h2
          exact .inl ⟨h1, h3⟩
        | succ j => exact .inr ⟨j, u, by omega, h2, h3⟩
      · rintro (⟨h1, h2⟩ | ⟨j, u, h1, h2, h3⟩)
        · exact ⟨0, t, h1, rfl, h2⟩
        · exact ⟨j + 1, u, by omega, h2, h3⟩
    rw [hr, ← ih]
    simp only [PTree.candidates]
    cases hs : t.simulated with
    | true =>
      have : ¬ unmarked t := fun h => by rw [(simulated_iff t).mpr h] at hs; cases hs
      simp [this]
    | false =>
      have := (simulated_iff t).mp hs
      simp [this]

theorem candidates_same : ∀ (ts ts' : List (Core E)) (n : Nat), ts.length = ts'.length →
    (∀ (i : Nat) t t', ts[i]? = some t → ts'[i]? = some t' → (unmarked t ↔ unmarked t')) →
    PTree.candidates ts n = PTree.candidates ts' n
  | [], [], _, _, _ => rfl
  | [], _ :: _, _, h, _ => by simp at h
  | _ :: _, [], _, h, _ => by simp at h
  | t :: ts, t' :: ts', n, hl, h => by
    have ih := candidates_same ts ts' (n + 1) (by simpa using hl) fun i u u' hu hu' => h (i + 1) u u' hu hu'
    have h0 := h 0 t t' rfl rfl
    rw [← simulated_iff, ← simulated_iff] at h0
    simp only [PTree.candidates, ih]
    cases h1 : t.simulated <;> cases h2 : t'.simulated <;> simp_all

/-! ### Provers of compositions -/

theorem getL_twin {M : Nat} {σ σ' : Store} {X X' : Key → Int} {d d' : Dict Int} : ∀ (ts ts' : List (Core E)),
    ts.length = ts'.length →
    (∀ (i : Nat) t t', ts[i]? = some t → ts'[i]? = some t' →
      Twin M (Got σ X σ' X' true t) (starting σ (PTree.getProver t d)) (starting σ' (PTree.getProver t' d'))) →
    Twin M (fun (a : List (Option (CoreProver E)) × List (Core E)) τ
        (a' : List (Option (CoreProver E)) × List (Core E)) τ' =>
        (τ = σ ∧ τ' = σ') ∧ Tree.blankL a.2 = Tree.blankL ts ∧ Tree.blankL a'.2 = Tree.blankL ts ∧
        ∃ ps ps' : List (CoreProver E), a.1 = ps.map some ∧ a'.1 = ps'.map some ∧ ps.length = ts.length ∧ ps'.length = ts.length ∧
          ∀ (i : Nat) t p p', ts[i]? = some t → ps[i]? = some p → ps'[i]? = some p' → Mates σ X σ' X' t p p')
      (starting σ (PTree.getProverL ts d)) (starting σ' (PTree.getProverL ts' d'))
  | [], [], _, _ => .pure ⟨⟨rfl, rfl⟩, rfl, rfl, [], [], rfl, rfl, rfl, rfl, by simp⟩
  | [], _ :: _, h, _ => by simp at h
  | _ :: _, [], h, _ => by simp at h
  | t :: ts, t' :: ts', hl, h => by
    simp only [PTree.getProverL]
    refine .bind (h 0 t t' rfl rfl) ?_
    rintro ⟨p?, t1⟩ τ ⟨p?', t1'⟩ τ' ⟨⟨rfl, rfl⟩, h1, h2, h3, _⟩
    obtain ⟨p, p', e, e', hm⟩ := h3 rfl
    simp only at h1 h2 e e'
    subst e; subst e'
    refine .bind (getL_twin ts ts' (by simpa using hl) fun i u u' hu hu' => h (i + 1) u u' hu hu') ?_
    rintro ⟨qs, us⟩ τ ⟨qs', us'⟩ τ' ⟨⟨rfl, rfl⟩, g1, g2, ps, ps', e, e', g3, g4, g5⟩
    simp only at g1 g2 e e'
    subst e; subst e'
    refine .pure ⟨⟨rfl, rfl⟩, ?_, ?_, p :: ps, p' :: ps', rfl, rfl, by simp [g3], by simp [g4], ?_⟩
    · simp only [Tree.blankL, h1, g1]
    · simp only [Tree.blankL, h2, g2]
    · intro i u q q' hu hq hq'
      cases i with
      | zero =>
        simp only [List.getElem?_cons_zero, Option.some.injEq] at hu hq hq'
        subst hu; subst hq; subst hq'
        exact hm
      | succ i => exact g5 i u q q' hu hq hq'

theorem allSome_map {α : Type} (l : List α) : PTree.allSome (l.map some) = some l := by
  induction l with
  | nil => rfl
  | cons a l ih => simp [PTree.allSome, ih]

theorem blankL_idx {ts us : List (Core E)} (h : Tree.blankL us = Tree.blankL ts) {i : Nat} {t u : Core E}
    (ht : ts[i]? = some t) (hu : us[i]? = some u) : Tree.blank u = Tree.blank t := by
  rw [Tree.blankL_eq, Tree.blankL_eq] at h
  have h1 : (us.map Tree.blank)[i]? = some (Tree.blank u) := by rw [List.getElem?_map, hu]; rfl
  rw [h, List.getElem?_map, ht] at h1
  exact (Option.some.inj h1).symm

/-- People in the same position get related provers. -/
theorem peers_get {M : Nat} {σ σ' : Store} {X X' : Key → Int} {d d' : Dict Int} {V : List Sec}
    (hV : SameKeys σ σ' V) (hu : d.Uniq σ) (hu' : d'.Uniq σ') {b : Bool} {t t' : Core E}
    (h : Peers σ d X σ' d' X' b t t') : Ready M V σ σ' t → Tree.blank t' = Tree.blank t →
    ((∀ s, t ≠ .leaf s) → updateSecretValues σ d = σ ∧ updateSecretValues σ' d' = σ') →
    Twin M (Got σ X σ' X' b t) (starting σ (PTree.getProver t d)) (starting σ' (PTree.getProver t' d')) := by
  induction h with
  | rep s s' hv h hv' h' =>
    intro hr hb _
    have hn : s'.norm = s.norm := by simp only [Tree.blank, Tree.leaf.injEq] at hb; exact hb
    have hs : SolidRep s := by cases hr.good with | leaf _ h => exact h
    obtain ⟨hs', ht'⟩ := solidRep_norm hn ⟨hs, hr.tors⟩
    obtain ⟨p, s1, a1, a2, a3, a4⟩ := get_rep_some hs hr.tors hu hv h
    obtain ⟨p', s1', b1, b2, b3, b4⟩ := get_rep_some hs' ht' hu' hv' h'
    simp only [PTree.getProver]
    refine .bind (Twin.ends (Q := fun a τ b τ' => a = (some p, s1) ∧ b = (some p', s1') ∧ τ = σ ∧ τ' = σ')
      ⟨rfl, rfl, rfl, rfl⟩ a1 b1) ?_
    rintro a τ b τ' ⟨rfl, rfl, rfl, rfl⟩
    exact .pure ⟨⟨rfl, rfl⟩, congrArg Tree.leaf a4, congrArg Tree.leaf (b4.trans hn),
      fun _ => ⟨_, _, rfl, rfl, .leaf s p p' a2 b2 a3 (b3.trans hn)⟩, by simp⟩
  | lack s s' x x' hx h hx' h' =>
    intro hr hb _
    have hn : s'.norm = s.norm := by simp only [Tree.blank, Tree.leaf.injEq] at hb; exact hb
    obtain ⟨s1, a1, a4⟩ := get_rep_none hx h
    obtain ⟨s1', b1, b4⟩ := get_rep_none hx' h'
    simp only [PTree.getProver]
    refine .bind (Twin.ends (Q := fun a τ b τ' => a = (none, s1) ∧ b = (none, s1') ∧ τ = σ ∧ τ' = σ')
      ⟨rfl, rfl, rfl, rfl⟩ a1 b1) ?_
    rintro a τ b τ' ⟨rfl, rfl, rfl, rfl⟩
    exact .pure ⟨⟨rfl, rfl⟩, congrArg Tree.leaf a4, congrArg Tree.leaf (b4.trans hn), by simp,
      fun _ => ⟨rfl, rfl⟩⟩
  | all subs subs' h ih =>
    intro hr hb hst
    obtain ⟨u1, u2⟩ := hst (by simp)
    have hbl : Tree.blankL subs' = Tree.blankL subs := by
      simpa only [Tree.blank, Tree.and.injEq, true_and] using hb
    have hlen := (blankL_get hbl).1
    simp only [PTree.getProver]
    refine .get ?_
    rw [u1, u2]
    refine .bind (Twin.ends (Q := fun _ τ _ τ' => τ = σ ∧ τ' = σ') ⟨rfl, rfl⟩ (fun _ => rfl) fun _ => rfl) ?_
    rintro _ τ _ τ' ⟨rfl, rfl⟩
    simp only [Bool.false_eq_true, if_false]
    refine .bind (getL_twin (X := X) (X' := X') subs subs' hlen.symm fun i t t' ht ht' => ?_) ?_
    · exact ih i t t' ht ht' (ready_and hr (List.mem_of_getElem? ht)) (blankL_idx hbl ht ht') fun _ => ⟨u1, u2⟩
    · rintro ⟨qs, us⟩ τ ⟨qs', us'⟩ τ' ⟨⟨rfl, rfl⟩, g1, g2, ps, ps', e, e', g3, g4, g5⟩
      simp only at g1 g2 e e'
      subst e; subst e'
      simp only [allSome_map]
      exact .pure ⟨⟨rfl, rfl⟩, congrArg (Tree.and false) g1, congrArg (Tree.and false) g2,
        fun _ => ⟨_, _, rfl, rfl, .and _ _ _ subs ps ps' g3 g4 g5⟩, by simp⟩
  | markedAll subs subs' =>
    intro hr hb hst
    obtain ⟨u1, u2⟩ := hst (by simp)
    simp only [PTree.getProver]
    refine .get ?_
    rw [u1, u2]
    refine .bind (Twin.ends (Q := fun _ τ _ τ' => τ = σ ∧ τ' = σ') ⟨rfl, rfl⟩ (fun _ => rfl) fun _ => rfl) ?_
    rintro _ τ _ τ' ⟨rfl, rfl⟩
    exact .pure ⟨⟨rfl, rfl⟩, rfl, hb, by simp, fun _ => ⟨rfl, rfl⟩⟩
  | markedAny subs subs' =>
    intro hr hb hst
    obtain ⟨u1, u2⟩ := hst (by simp)
    simp only [PTree.getProver]
    refine .get ?_
    rw [u1, u2]
    refine .bind (Twin.ends (Q := fun _ τ _ τ' => τ = σ ∧ τ' = σ') ⟨rfl, rfl⟩ (fun _ => rfl) fun _ => rfl) ?_
    rintro _ τ _ τ' ⟨rfl, rfl⟩
    exact .pure ⟨⟨rfl, rfl⟩, rfl, hb, by simp, fun _ => ⟨rfl, rfl⟩⟩
  | any subs subs' can b hm h hb0 ih =>
    intro hr hb hst
    obtain ⟨u1, u2⟩ := hst (by simp)
    have hbl : Tree.blankL subs' = Tree.blankL subs := by
      simpa only [Tree.blank, Tree.or.injEq, true_and] using hb
    have hlen := (blankL_get hbl).1
    simp only [PTree.getProver]
    refine .get ?_
    rw [u1, u2]
    refine .bind (Twin.ends (Q := fun _ τ _ τ' => τ = σ ∧ τ' = σ') ⟨rfl, rfl⟩ (fun _ => rfl) fun _ => rfl) ?_
    rintro _ τ _ τ' ⟨rfl, rfl⟩
    simp only [Bool.false_eq_true, if_false]
    rw [← candidates_same subs subs' 0 hlen.symm hm]
    have hmem : ∀ i, i ∈ PTree.candidates subs 0 ↔ ∃ t, subs[i]? = some t ∧ unmarked t := by
      intro i
      rw [mem_candidates]
      constructor
      · rintro ⟨j, t, rfl, h1, h2⟩; exact ⟨t, by simpa using h1, h2⟩
      · rintro ⟨t, h1, h2⟩; exact ⟨i, t, by omega, h1, h2⟩
    refine .bind (loop_twin (X := X) (X' := X') (can := can) (ts := subs) (ts' := subs') _ _ subs subs' (le_refl _)
      (fun i hi => ?_) rfl hbl) ?_
    · obtain ⟨t, ht, hun⟩ := (hmem i).mp hi
      have hlt : i < subs'.length := hlen ▸ (List.getElem?_eq_some_iff.mp ht).1
      have ht' := List.getElem?_eq_getElem hlt
      exact ⟨t, _, ht, ht', ih i t _ ht ht' hun (ready_or hr (List.mem_of_getElem? ht)) (blankL_idx hbl ht ht')
        fun _ => ⟨u1, u2⟩⟩
    · rintro ⟨r, us⟩ τ ⟨r', us'⟩ τ' ⟨⟨rfl, rfl⟩, g1, g2, g3, g4⟩
      simp only at g1 g2 g3 g4
      cases hbb : b with
      | false =>
        have hno : ∀ i ∈ PTree.candidates subs 0, can i = false := by
          intro i hi
          obtain ⟨t, ht, hun⟩ := (hmem i).mp hi
          cases hc : can i with
          | false => rfl
          | true =>
            have := hb0.mpr ⟨i, t, ht, hun, hc⟩
            rw [hbb] at this
            cases this
        obtain ⟨rfl, rfl⟩ := g4 hno
        exact .pure ⟨⟨rfl, rfl⟩, congrArg (Tree.or false) g1, congrArg (Tree.or false) g2, by simp,
          fun _ => ⟨rfl, rfl⟩⟩
      | true =>
        obtain ⟨i0, t0, h1, h2, h3⟩ := hb0.mp hbb
        obtain ⟨i, t, p, p', rfl, rfl, hi, hmt⟩ := g3 ⟨i0, (hmem i0).mpr ⟨t0, h1, h2⟩, h3⟩
        simp only
        have hsec : secretsL us = secretsL subs := by
          have := (shape_blank (.or false us : Core E) (.or false subs) (congrArg (Tree.or false) g1)).2
          simpa only [secrets] using this
        have hgood := good_blank hr.good (.or false us) (congrArg (Tree.or false) g1)
        have hgs : ∀ t ∈ us, Good SolidRep t := by cases hgood with | or _ _ _ h => exact h
        refine .bind (setup_equal hV i us us' 0 hgs (fun x hx => hr.sub x (by
          rw [hsec] at hx; simpa only [secrets] using hx)) (g2.trans g1.symm)) ?_
        rintro ⟨a1, a2⟩ τ ⟨b1, b2⟩ τ' ⟨⟨e1, rfl, rfl⟩, rfl, rfl, e2⟩
        simp only at e1 e2
        subst e1
        have hl1 := (blankL_get g1).1
        simp only at hl1
        have hil := (List.getElem?_eq_some_iff.mp hi).1
        rw [if_pos (by omega)] at e2
        exact .pure ⟨⟨rfl, rfl⟩, congrArg (Tree.or false) g1, congrArg (Tree.or false) g2,
          fun _ => ⟨_, _, rfl, rfl, .or _ _ _ i subs a1 b1 t p p' a2 g1 g2 hi (e2.trans hl1) hmt⟩, by simp⟩

end Zksk.Peer
