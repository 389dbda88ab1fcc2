import Verif.Lemmas.Pretend

/-! `get_prover` of somebody who is told for which secrets there are values, and whole runs. -/

set_option linter.unusedSectionVars false

namespace Zksk.Ward

open Spec Peer

variable {E : Type} [AddCommGroup E] [DecidableEq E]

variable {M : Nat} {σ σ' : Store} {X : Key → Int} {d d' : Dict Int} {V : List Sec}

theorem get_rep_any {s : DLRep E} (hs : SolidRep s) (hu : d.Uniq σ)
    (hv : ∀ x ∈ s.secretVars, (given σ d s x).isSome) :
    ∃ p s', (∀ r, DLRepProver.getProver s d ⟨σ, r⟩ = .ok ((some p, s'), ⟨σ, r⟩)) ∧
      p.stmt.norm = s.norm ∧ s'.norm = s.norm := by
  obtain ⟨x, hx⟩ := get_rep σ s d
  obtain ⟨p, s', h⟩ := getProver_progress_dlrep hs (w := ⟨σ, fun _ => 0⟩) (d := d) hu hv
  have e : x = (some p, s') := by
    have := hx fun _ => 0
    rw [h] at this
    injection this with this
    injection this with this _
    exact this.symm
  subst e
  obtain ⟨e1, e2, e3⟩ := getProver_dlrep h
  obtain ⟨f1, f2, f3⟩ := e3 p rfl
  exact ⟨p, s', hx, f1, e2⟩

/-! ### Selection of clauses -/

/-- Results of `get_prover` of a prover and of an outsider. -/
def Got (σ : Store) (X : Key → Int) (σ' : Store) (b : Bool) (t : Core E)
    (a : Option (CoreProver E) × Core E) (τ : Store) (a' : Option (CoreProver E) × Core E) (τ' : Store) : Prop :=
  (τ = σ ∧ τ' = σ') ∧ Tree.blank a.2 = Tree.blank t ∧ Tree.blank a'.2 = Tree.blank t ∧
    (b = true → ∃ p p', a.1 = some p ∧ a'.1 = some p' ∧ Wards σ X t p p') ∧
    (b = false → a.1 = none ∧ a'.1 = none)

theorem loop_ward {M : Nat} {σ σ' : Store} {X : Key → Int} {d d' : Dict Int} {can : Nat → Bool}
    {ts ts' : List (Core E)} : ∀ (fuel : Nat) (possible : List Nat) (us us' : List (Core E)),
    possible.length ≤ fuel →
    (∀ i ∈ possible, ∃ t t', ts[i]? = some t ∧ ts'[i]? = some t' ∧
      Twin M (Got σ X σ' (can i) t) (starting σ (PTree.getProver t d)) (starting σ' (PTree.getProver t' d'))) →
    Tree.blankL us = Tree.blankL ts → Tree.blankL us' = Tree.blankL ts →
    Twin M (fun (a : Option (Nat × CoreProver E) × List (Core E)) τ
        (a' : Option (Nat × CoreProver E) × List (Core E)) τ' =>
        (τ = σ ∧ τ' = σ') ∧ Tree.blankL a.2 = Tree.blankL ts ∧ Tree.blankL a'.2 = Tree.blankL ts ∧
        ((∃ i ∈ possible, can i = true) → ∃ i t p p', a.1 = some (i, p) ∧ a'.1 = some (i, p') ∧
          ts[i]? = some t ∧ Wards σ X t p p') ∧
        ((∀ i ∈ possible, can i = false) → a.1 = none ∧ a'.1 = none))
      (starting σ (PTree.orLoop (PTree.getProverActs ts d) fuel possible us))
      (starting σ' (PTree.orLoop (PTree.getProverActs ts' d') fuel possible us'))
  | 0, possible, us, us', hf, h, hb, hb' => by
    have : possible = [] := List.length_eq_zero_iff.mp (by omega)
    subst this
    exact .pure ⟨⟨rfl, rfl⟩, hb, hb', by simp, by simp⟩
  | fuel + 1, possible, us, us', hf, h, hb, hb' => by
    simp only [PTree.orLoop]
    cases hp : possible with
    | nil => exact .pure ⟨⟨rfl, rfl⟩, hb, hb', by simp, by simp⟩
    | cons j js =>
    rw [← hp]
    have hne : possible ≠ [] := by simp [hp]
    rw [if_neg (by simpa using hne), if_neg (by simpa using hne)]
    refine .bind (choice_same hne) ?_
    rintro i τ i' τ' ⟨⟨rfl, hi⟩, rfl, rfl⟩
    obtain ⟨t, t', ht, ht', hT⟩ := h i hi
    rw [acts_get d ts i t ht, acts_get d' ts' i t' ht']
    refine .bind hT ?_
    rintro ⟨p?, t1⟩ τ ⟨p?', t1'⟩ τ' ⟨⟨rfl, rfl⟩, h1, h2, h3, h4⟩
    simp only at h1 h2 h3 h4
    cases hc : can i with
    | true =>
      obtain ⟨p, p', rfl, rfl, hm⟩ := h3 hc
      refine .pure ⟨⟨rfl, rfl⟩, blankL_set hb ht h1, blankL_set hb' ht h2, fun _ => ⟨i, t, p, p', rfl, rfl, ht, hm⟩,
        fun hn => ?_⟩
      rw [hn i hi] at hc
      cases hc
    | false =>
      obtain ⟨rfl, rfl⟩ := h4 hc
      have hlen : (possible.erase i).length ≤ fuel := by rw [List.length_erase_of_mem hi]; omega
      refine (loop_ward fuel (possible.erase i) _ _ hlen (fun k hk => h k (List.mem_of_mem_erase hk))
        (blankL_set hb ht h1) (blankL_set hb' ht h2)).mono ?_
      rintro a τ a' τ' ⟨g1, g2, g3, g4, g5⟩
      refine ⟨g1, g2, g3, fun hex => g4 ?_, fun hn => g5 fun k hk => hn k (List.mem_of_mem_erase hk)⟩
      obtain ⟨k, hk, hck⟩ := hex
      have hki : k ≠ i := by
        rintro rfl
        rw [hc] at hck
        cases hck
      exact ⟨k, (List.mem_erase_of_ne hki).mpr hk, hck⟩

/-! ### Provers of compositions -/

theorem getL_ward {M : Nat} {σ σ' : Store} {X : Key → Int} {d d' : Dict Int} : ∀ (ts ts' : List (Core E)),
    ts.length = ts'.length →
    (∀ (i : Nat) t t', ts[i]? = some t → ts'[i]? = some t' →
      Twin M (Got σ X σ' true t) (starting σ (PTree.getProver t d)) (starting σ' (PTree.getProver t' d'))) →
    Twin M (fun (a : List (Option (CoreProver E)) × List (Core E)) τ
        (a' : List (Option (CoreProver E)) × List (Core E)) τ' =>
        (τ = σ ∧ τ' = σ') ∧ Tree.blankL a.2 = Tree.blankL ts ∧ Tree.blankL a'.2 = Tree.blankL ts ∧
        ∃ ps ps' : List (CoreProver E), a.1 = ps.map some ∧ a'.1 = ps'.map some ∧ ps.length = ts.length ∧ ps'.length = ts.length ∧
          ∀ (i : Nat) t p p', ts[i]? = some t → ps[i]? = some p → ps'[i]? = some p' → Wards σ X t p p')
      (starting σ (PTree.getProverL ts d)) (starting σ' (PTree.getProverL ts' d'))
  | [], [], _, _ => .pure ⟨⟨rfl, rfl⟩, rfl, rfl, [], [], rfl, rfl, rfl, rfl, by simp⟩
  | [], _ :: _, h, _ => by simp at h
  | _ :: _, [], h, _ => by simp at h
  | t :: ts, t' :: ts', hl, h => by
    simp only [PTree.getProverL]
    refine .bind (h 0 t t' rfl rfl) ?_
    rintro ⟨p?, t1⟩ τ ⟨p?', t1'⟩ τ' ⟨⟨rfl, rfl⟩, h1, h2, h3, _⟩
    obtain ⟨p, p', e, e', hm⟩ := h3 rfl
    simp only at h1 h2 e e'
    subst e; subst e'
    refine .bind (getL_ward ts ts' (by simpa using hl) fun i u u' hu hu' => h (i + 1) u u' hu hu') ?_
    rintro ⟨qs, us⟩ τ ⟨qs', us'⟩ τ' ⟨⟨rfl, rfl⟩, g1, g2, ps, ps', e, e', g3, g4, g5⟩
    simp only at g1 g2 e e'
    subst e; subst e'
    refine .pure ⟨⟨rfl, rfl⟩, ?_, ?_, p :: ps, p' :: ps', rfl, rfl, by simp [g3], by simp [g4], ?_⟩
    · simp only [Tree.blankL, h1, g1]
    · simp only [Tree.blankL, h2, g2]
    · intro i u q q' hu hq hq'
      cases i with
      | zero =>
        simp only [List.getElem?_cons_zero, Option.some.injEq] at hu hq hq'
        subst hu; subst hq; subst hq'
        exact hm
      | succ i => exact g5 i u q q' hu hq hq'

/-- The outsider gets related provers. -/
theorem informed_get {M : Nat} {σ σ' : Store} {X : Key → Int} {d d' : Dict Int} {V : List Sec}
    (hV : SameKeys σ σ' V) (hu : d.Uniq σ) (hu' : d'.Uniq σ') {b : Bool} {t t' : Core E}
    (h : Informed σ d X σ' d' b t t') : Ready M V σ σ' t → Tree.blank t' = Tree.blank t →
    ((∀ s, t ≠ .leaf s) → updateSecretValues σ d = σ ∧ updateSecretValues σ' d' = σ') →
    Twin M (Got σ X σ' b t) (starting σ (PTree.getProver t d)) (starting σ' (PTree.getProver t' d')) := by
  induction h with
  | rep s s' hv h hv' =>
    intro hr hb _
    have hn : s'.norm = s.norm := by simp only [Tree.blank, Tree.leaf.injEq] at hb; exact hb
    have hs : SolidRep s := by cases hr.good with | leaf _ h => exact h
    obtain ⟨hs', ht'⟩ := solidRep_norm hn ⟨hs, hr.tors⟩
    obtain ⟨p, s1, a1, a2, a3, a4⟩ := get_rep_some hs hr.tors hu hv h
    obtain ⟨p', s1', b1, b3, b4⟩ := get_rep_any hs' hu' hv'
    simp only [PTree.getProver]
    refine .bind (Twin.ends (Q := fun a τ b τ' => a = (some p, s1) ∧ b = (some p', s1') ∧ τ = σ ∧ τ' = σ')
      ⟨rfl, rfl, rfl, rfl⟩ a1 b1) ?_
    rintro a τ b τ' ⟨rfl, rfl, rfl, rfl⟩
    exact .pure ⟨⟨rfl, rfl⟩, congrArg Tree.leaf a4, congrArg Tree.leaf (b4.trans hn),
      fun _ => ⟨_, _, rfl, rfl, Wards.leaf s p p' a2 a3 (b3.trans hn)⟩, by simp⟩
  | lack s s' x x' hx h hx' h' =>
    intro hr hb _
    have hn : s'.norm = s.norm := by simp only [Tree.blank, Tree.leaf.injEq] at hb; exact hb
    obtain ⟨s1, a1, a4⟩ := get_rep_none hx h
    obtain ⟨s1', b1, b4⟩ := get_rep_none hx' h'
    simp only [PTree.getProver]
    refine .bind (Twin.ends (Q := fun a τ b τ' => a = (none, s1) ∧ b = (none, s1') ∧ τ = σ ∧ τ' = σ')
      ⟨rfl, rfl, rfl, rfl⟩ a1 b1) ?_
    rintro a τ b τ' ⟨rfl, rfl, rfl, rfl⟩
    exact .pure ⟨⟨rfl, rfl⟩, congrArg Tree.leaf a4, congrArg Tree.leaf (b4.trans hn), by simp,
      fun _ => ⟨rfl, rfl⟩⟩
  | all subs subs' h ih =>
    intro hr hb hst
    obtain ⟨u1, u2⟩ := hst (by simp)
    have hbl : Tree.blankL subs' = Tree.blankL subs := by
      simpa only [Tree.blank, Tree.and.injEq, true_and] using hb
    have hlen := (blankL_get hbl).1
    simp only [PTree.getProver]
    refine .get ?_
    rw [u1, u2]
    refine .bind (Twin.ends (Q := fun _ τ _ τ' => τ = σ ∧ τ' = σ') ⟨rfl, rfl⟩ (fun _ => rfl) fun _ => rfl) ?_
    rintro _ τ _ τ' ⟨rfl, rfl⟩
    simp only [Bool.false_eq_true, if_false]
    refine .bind (getL_ward (X := X) subs subs' hlen.symm fun i t t' ht ht' => ?_) ?_
    · exact ih i t t' ht ht' (ready_and hr (List.mem_of_getElem? ht)) (blankL_idx hbl ht ht') fun _ => ⟨u1, u2⟩
    · rintro ⟨qs, us⟩ τ ⟨qs', us'⟩ τ' ⟨⟨rfl, rfl⟩, g1, g2, ps, ps', e, e', g3, g4, g5⟩
      simp only at g1 g2 e e'
      subst e; subst e'
      simp only [allSome_map]
      exact .pure ⟨⟨rfl, rfl⟩, congrArg (Tree.and false) g1, congrArg (Tree.and false) g2,
        fun _ => ⟨_, _, rfl, rfl, .and _ _ _ subs ps ps' g3 g4 g5⟩, by simp⟩
  | markedAll subs subs' =>
    intro hr hb hst
    obtain ⟨u1, u2⟩ := hst (by simp)
    simp only [PTree.getProver]
    refine .get ?_
    rw [u1, u2]
    refine .bind (Twin.ends (Q := fun _ τ _ τ' => τ = σ ∧ τ' = σ') ⟨rfl, rfl⟩ (fun _ => rfl) fun _ => rfl) ?_
    rintro _ τ _ τ' ⟨rfl, rfl⟩
    exact .pure ⟨⟨rfl, rfl⟩, rfl, hb, by simp, fun _ => ⟨rfl, rfl⟩⟩
  | markedAny subs subs' =>
    intro hr hb hst
    obtain ⟨u1, u2⟩ := hst (by simp)
    simp only [PTree.getProver]
    refine .get ?_
    rw [u1, u2]
    refine .bind (Twin.ends (Q := fun _ τ _ τ' => τ = σ ∧ τ' = σ') ⟨rfl, rfl⟩ (fun _ => rfl) fun _ => rfl) ?_
    rintro _ τ _ τ' ⟨rfl, rfl⟩
    exact .pure ⟨⟨rfl, rfl⟩, rfl, hb, by simp, fun _ => ⟨rfl, rfl⟩⟩
  | any subs subs' can b hm h hb0 ih =>
    intro hr hb hst
    obtain ⟨u1, u2⟩ := hst (by simp)
    have hbl : Tree.blankL subs' = Tree.blankL subs := by
      simpa only [Tree.blank, Tree.or.injEq, true_and] using hb
    have hlen := (blankL_get hbl).1
    simp only [PTree.getProver]
    refine .get ?_
    rw [u1, u2]
    refine .bind (Twin.ends (Q := fun _ τ _ τ' => τ = σ ∧ τ' = σ') ⟨rfl, rfl⟩ (fun _ => rfl) fun _ => rfl) ?_
    rintro _ τ _ τ' ⟨rfl, rfl⟩
    simp only [Bool.false_eq_true, if_false]
    rw [← candidates_same subs subs' 0 hlen.symm hm]
    have hmem : ∀ i, i ∈ PTree.candidates subs 0 ↔ ∃ t, subs[i]? = some t ∧ unmarked t := by
      intro i
      rw [mem_candidates]
      constructor
      · rintro ⟨j, t, rfl, h1, h2⟩; exact ⟨t, by simpa using h1, h2⟩
      · rintro ⟨t, h1, h2⟩; exact ⟨i, t, by omega, h1, h2⟩
    refine .bind (loop_ward (X := X) (can := can) (ts := subs) (ts' := subs') _ _ subs subs' (le_refl _)
      (fun i hi => ?_) rfl hbl) ?_
    · obtain ⟨t, ht, hun⟩ := (hmem i).mp hi
      have hlt : i < subs'.length := hlen ▸ (List.getElem?_eq_some_iff.mp ht).1
      have ht' := List.getElem?_eq_getElem hlt
      exact ⟨t, _, ht, ht', ih i t _ ht ht' hun (ready_or hr (List.mem_of_getElem? ht)) (blankL_idx hbl ht ht')
        fun _ => ⟨u1, u2⟩⟩
    · rintro ⟨r, us⟩ τ ⟨r', us'⟩ τ' ⟨⟨rfl, rfl⟩, g1, g2, g3, g4⟩
      simp only at g1 g2 g3 g4
      cases hbb : b with
      | false =>
        have hno : ∀ i ∈ PTree.candidates subs 0, can i = false := by
          intro i hi
          obtain ⟨t, ht, hun⟩ := (hmem i).mp hi
          cases hc : can i with
          | false => rfl
          | true =>
            have := hb0.mpr ⟨i, t, ht, hun, hc⟩
            rw [hbb] at this
            cases this
        obtain ⟨rfl, rfl⟩ := g4 hno
        exact .pure ⟨⟨rfl, rfl⟩, congrArg (Tree.or false) g1, congrArg (Tree.or false) g2, by simp,
          fun _ => ⟨rfl, rfl⟩⟩
      | true =>
        obtain ⟨i0, t0, h1, h2, h3⟩ := hb0.mp hbb
        obtain ⟨i, t, p, p', rfl, rfl, hi, hmt⟩ := g3 ⟨i0, (hmem i0).mpr ⟨t0, h1, h2⟩, h3⟩
        simp only
        have hsec : secretsL us = secretsL subs := by
          have := (shape_blank (.or false us : Core E) (.or false subs) (congrArg (Tree.or false) g1)).2
          simpa only [secrets] using this
        have hgood := good_blank hr.good (.or false us) (congrArg (Tree.or false) g1)
        have hgs : ∀ t ∈ us, Good SolidRep t := by cases hgood with | or _ _ _ h => exact h
        refine .bind (setup_equal hV i us us' 0 hgs (fun x hx => hr.sub x (by
          rw [hsec] at hx; simpa only [secrets] using hx)) (g2.trans g1.symm)) ?_
        rintro ⟨a1, a2⟩ τ ⟨b1, b2⟩ τ' ⟨⟨e1, rfl, rfl⟩, rfl, rfl, e2⟩
        simp only at e1 e2
        subst e1
        have hl1 := (blankL_get g1).1
        simp only at hl1
        have hil := (List.getElem?_eq_some_iff.mp hi).1
        rw [if_pos (by omega)] at e2
        exact .pure ⟨⟨rfl, rfl⟩, congrArg (Tree.or false) g1, congrArg (Tree.or false) g2,
          fun _ => ⟨_, _, rfl, rfl, .or _ _ _ i subs a1 b1 t p p' a2 g1 g2 hi (e2.trans hl1) hmt⟩, by simp⟩

/-! ### Runs -/

/-- The assumptions about a prover and an outsider. -/
structure Pair (M : Nat) (σ0 : Store) (d : Dict Int) (X : Key → Int) (t : Core E) (σ0' : Store) (d' : Dict Int)
    (t' : Core E) : Prop where
  pos : M ≠ 0
  solid : Solid t
  tors : Torsion t
  dvd : ∀ x b, (x, b) ∈ terms t → b.grp.order ∣ M
  shp : shape t' = shape t
  sec : secrets t' = secrets t
  uniq : d.Uniq (heapFor σ0 d t)
  uniq' : d'.Uniq (heapFor σ0' d' t')
  comp : Composable (heapFor σ0 d t) t
  sees : SeesSame (heapFor σ0 d t) (heapFor σ0' d' t') (secrets t)
  told : Informed (heapFor σ0 d t) d X (heapFor σ0' d' t') d' true t t'

variable {σ0 σ0' : Store} {t t' : Core E}

/-- What a run of the prover and what the outsider makes have in common. -/
def Alike (σ σ' : Store) (c : Int) (a : Before E) (τ : Store) (b : Val E × PId E × Val E × Val E) (τ' : Store) : Prop :=
  (τ = σ ∧ τ' = σ') ∧ a.precommitment = b.1 ∧ a.id1 = b.2.1 ∧ a.commitment = b.2.2.1 ∧ a.id2 = b.2.1 ∧
    ((∃ P, a.commitment = .pt P) ∨ ∃ l, a.commitment = .list l) ∧ (∀ x, a.precommitment ≠ .str x) ∧
    ∀ s, PTree.computeResponse a.prover c ⟨σ, s⟩ = .ok (b.2.2.2, ⟨σ, s⟩)

theorem commit_form {p : CoreProver E} {o : Option (Dict Int)} {w w' : World} {com : Val E} {p' : CoreProver E}
    (h : PTree.internalCommit p o w = .ok ((com, p'), w')) :
    (∃ P, com = .pt P) ∨ ∃ l, com = .list l := by
  cases p with
  | leaf p =>
    simp only [PTree.internalCommit] at h
    obtain ⟨⟨v, p1⟩, w1, h1, h⟩ := pm_bind.mp h
    rw [pm_pure_iff, Prod.mk.injEq, Prod.mk.injEq] at h
    obtain ⟨⟨rfl, _⟩, _⟩ := h
    have h1 : DLRepProver.internalCommit p o w = .ok ((v, p1), w1) := h1
    unfold DLRepProver.internalCommit at h1
    obtain ⟨D, w2, _, h1⟩ := pm_bind.mp h1
    rw [pm_getStore_bind, pm_liftE_bind_iff] at h1
    obtain ⟨ks, _, h1⟩ := h1
    obtain ⟨cm, _, h1⟩ := pm_liftE_bind_iff.mp h1
    rw [pm_pure_iff, Prod.mk.injEq, Prod.mk.injEq] at h1
    obtain ⟨⟨rfl, _⟩, _⟩ := h1
    exact .inl ⟨_, rfl⟩
  | and b ps =>
    simp only [PTree.internalCommit] at h
    rw [pm_getStore_bind, pm_liftE_bind_iff] at h
    obtain ⟨_, _, h⟩ := h
    obtain ⟨D, w2, _, h⟩ := pm_bind.mp h
    obtain ⟨⟨vs, ps'⟩, w3, _, h⟩ := pm_bind.mp h
    rw [pm_pure_iff, Prod.mk.injEq, Prod.mk.injEq] at h
    obtain ⟨⟨rfl, _⟩, _⟩ := h
    exact .inr ⟨_, rfl⟩
  | or b i us p sims =>
    simp only [PTree.internalCommit] at h
    rw [pm_getStore_bind, pm_liftE_bind_iff] at h
    obtain ⟨_, _, h⟩ := h
    obtain ⟨⟨v, p1⟩, w3, _, h⟩ := pm_bind.mp h
    obtain ⟨vs, _, h⟩ := pm_liftE_bind_iff.mp h
    rw [pm_pure_iff, Prod.mk.injEq, Prod.mk.injEq] at h
    obtain ⟨⟨rfl, _⟩, _⟩ := h
    exact .inr ⟨_, rfl⟩

theorem precommit_not_str {p p' : CoreProver E} {w w' : World} {v : Val E}
    (h : PTree.precommit p w = .ok ((v, p'), w')) (x : String) : v ≠ .str x := by
  cases p with
  | leaf p =>
    simp only [PTree.precommit] at h
    obtain ⟨⟨v', p1⟩, w1, h1, h⟩ := pm_bind.mp h
    rw [pm_pure_iff, Prod.mk.injEq, Prod.mk.injEq] at h
    obtain ⟨⟨rfl, _⟩, _⟩ := h
    have h1 : (pure (Val.none, p) : PM (Val E × DLRepProver E)) w = .ok ((v', p1), w1) := h1
    rw [pm_pure_iff, Prod.mk.injEq, Prod.mk.injEq] at h1
    obtain ⟨⟨rfl, _⟩, _⟩ := h1
    simp
  | and b ps =>
    simp only [PTree.precommit] at h
    obtain ⟨⟨vs, ps'⟩, w3, _, h⟩ := pm_bind.mp h
    rw [pm_pure_iff, Prod.mk.injEq, Prod.mk.injEq] at h
    obtain ⟨⟨rfl, _⟩, _⟩ := h
    simp only [PTree.andPrecommitment]
    split <;> simp
  | or b i us p sims =>
    simp only [PTree.precommit] at h
    obtain ⟨⟨v, p1⟩, w3, _, h⟩ := pm_bind.mp h
    obtain ⟨vs, _, h⟩ := pm_liftE_bind_iff.mp h
    rw [pm_pure_iff, Prod.mk.injEq, Prod.mk.injEq] at h
    obtain ⟨⟨rfl, _⟩, _⟩ := h
    split <;> simp

theorem view_twin (h : Pair M σ0 d X t σ0' d' t') (c : Int) :
    Twin M (Alike (heapFor σ0 d t) (heapFor σ0' d' t') c) (starting σ0 (preRun t d))
      (starting σ0' (pretendedView t' d' c)) := by
  have hb : Tree.blank t' = Tree.blank t := blank_of_shape _ _ h.shp h.sec
  have hV : SameKeys (heapFor σ0 d t) (heapFor σ0' d' t') (secrets t) := h.sees.2
  have hr : Ready M (secrets t) (heapFor σ0 d t) (heapFor σ0' d' t') t :=
    ⟨good_of_solid t h.solid, h.comp, composable_keys h.comp hV, fun x hx => hx, h.dvd, h.tors⟩
  have hst : (∀ s, t ≠ .leaf s) → updateSecretValues (heapFor σ0 d t) d = heapFor σ0 d t ∧
      updateSecretValues (heapFor σ0' d' t') d' = heapFor σ0' d' t' := by
    intro hl
    have hl' : ∀ s, t' ≠ .leaf s := by
      rintro s rfl
      cases t with
      | leaf s => exact hl s rfl
      | and _ _ => simp [Tree.blank] at hb
      | or _ _ => simp [Tree.blank] at hb
    rw [heapFor_eq σ0 d hl, heapFor_eq σ0' d' hl']
    exact ⟨updateSecretValues_idem _ _, updateSecretValues_idem _ _⟩
  have hget := informed_get hV h.uniq h.uniq' h.told hr hb hst
  rw [← get_heapFor, ← get_heapFor] at hget
  unfold preRun pretendedView
  refine .bind hget ?_
  rintro ⟨p?, t1⟩ τ ⟨p?', t1'⟩ τ' ⟨⟨rfl, rfl⟩, -, -, h3, -⟩
  obtain ⟨p, p', e, e', hm⟩ := h3 rfl
  simp only at e e'
  subst e; subst e'
  obtain ⟨v, v1, v2⟩ := wards_precommit hm
  refine .bind (Twin.ends (Q := fun a τ b τ' => a = (v, p) ∧ b = (v, p') ∧ τ = heapFor σ0 d t ∧
    τ' = heapFor σ0' d' t') ⟨rfl, rfl, rfl, rfl⟩ (fun r => v1 _) fun r => v2 _) ?_
  rintro a τ b τ' ⟨rfl, rfl, rfl, rfl⟩
  have hbm := wards_blank hm
  obtain ⟨id, i1, i2, i3⟩ := same_id h.sees hbm.1 hbm.2
  refine .get (.lift i1 i2 ?_)
  refine .bind ((pretend_twin h.pos hV hm hr c none none trivial).left
    (P := fun a _ => (∃ P, a.1 = .pt P) ∨ ∃ l, a.1 = .list l) fun r a w h => commit_form h) ?_
  rintro ⟨com, p2⟩ τ ⟨com', r⟩ τ' ⟨⟨⟨rfl, rfl⟩, h1, h2, h4⟩, h5⟩
  simp only at h1 h2 h4 h5
  subst h1
  refine .ends (a := ⟨v, id, com, p2, id⟩) (b := (v, id, com, r)) ⟨⟨rfl, rfl⟩, rfl, rfl, rfl, rfl, h5,
    precommit_not_str (v1 ⟨σ0, fun _ => 0⟩), h4⟩ (fun s => ?_)
    fun s => rfl
  show (getStore >>= _) _ = _
  rw [pm_getStore_bind]
  simp only
  rw [h2, i1, pm_liftE_bind]
  rfl

theorem view_perm (h : Pair M σ0 d X t σ0' d' t') : ∃ N, ∀ n, N ≤ n → ∀ c : Int,
    ∃ e : Equiv.Perm (Fin n → Fin M), ∀ y, ∃ a τ b τ', Alike (heapFor σ0 d t) (heapFor σ0' d' t') c a τ b τ' ∧
      ∀ rest, ∃ r', preRun t d ⟨σ0, tape y rest⟩ = .ok (a, ⟨τ, r'⟩) ∧
        pretendedView t' d' c ⟨σ0', tape (e y) rest⟩ = .ok (b, ⟨τ', r'⟩) := by
  obtain ⟨N, hN⟩ := (view_twin h 0).reads
  exact ⟨N, fun n hn c => (view_twin h c).perm_of h.pos (hN.mono hn) fun _ => rfl⟩

theorem pretendedRun_view {env : Env E} {c : Int} {w : World} {b : Val E × PId E × Val E × Val E} {w' : World}
    (h : pretendedView t d c w = .ok (b, w')) :
    pretendedRun env t d c w = .ok ((b.1, ⟨env.digest b.2.1, b.2.2.1, c, b.2.2.2⟩), w') := by
  unfold pretendedRun
  rw [pm_bind_eq h]
  rfl

theorem runs_pretended (h : Pair M σ0 d X t σ0' d' t') (env : Env E) (c : Int) :
    SameResults M (honestRun env t d c) σ0 (pretendedRun env t' d' c) σ0' ∧
      Succeeds M (honestRun env t d c) σ0 ∧ Succeeds M (pretendedRun env t' d' c) σ0' := by
  obtain ⟨N, key⟩ := view_perm h
  refine ⟨⟨N, fun n hn => ?_⟩, ⟨N, fun n hn y rest => ?_⟩, ⟨N, fun n hn y rest => ?_⟩⟩
  · obtain ⟨e, he⟩ := key n hn c
    refine ⟨e, fun y rest => ?_⟩
    obtain ⟨a, τ, b, τ', ⟨⟨rfl, rfl⟩, h1, h2, h3, h4, _, _, h5⟩, h7⟩ := he y
    obtain ⟨r', h8, h9⟩ := h7 rest
    rw [honestRun_pre h8 h5, pretendedRun_view h9, h1, h2, h3]
    rfl
  · obtain ⟨e, he⟩ := key n hn c
    obtain ⟨a, τ, b, τ', ⟨⟨rfl, rfl⟩, h1, h2, h3, h4, _, _, h5⟩, h7⟩ := he y
    obtain ⟨r', h8, h9⟩ := h7 rest
    exact ⟨_, _, honestRun_pre h8 h5⟩
  · obtain ⟨e, he⟩ := key n hn c
    obtain ⟨a, τ, b, τ', _, h7⟩ := he (e.symm y)
    obtain ⟨r', h8, h9⟩ := h7 rest
    rw [e.apply_symm_apply] at h9
    exact ⟨_, _, pretendedRun_view h9⟩

end Zksk.Ward
