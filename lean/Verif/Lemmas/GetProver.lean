import Verif.Lemmas.Precommit

/-! What `get_prover` returns. -/

set_option linter.unusedSectionVars false

namespace Zksk

open Spec

variable {E : Type} [AddCommGroup E] [DecidableEq E]

section
variable {L P : Type} [StmtOps E L] [StmtView E L] [Blank L] [Judged L] [ProverOps E L P]

/-- All leaves outside clauses marked as simulated satisfy `TL`. -/
inductive Sat (TL : L → Prop) : Tree L → Prop
  | leaf (l : L) (h : TL l) : Sat TL (.leaf l)
  | and (s : Bool) (ts : List (Tree L)) (h : ∀ t ∈ ts, Sat TL t) : Sat TL (.and s ts)
  | or (s : Bool) (ts : List (Tree L)) (h : ∀ t ∈ ts, t.simulated = false → Sat TL t) : Sat TL (.or s ts)

theorem prepareSim_law (GL SL : L → Prop) (σ : Store)
    (hprep : ∀ (l l' : L) (w w' : World), GL l → w.store = σ → StmtOps.prepareSim l w = .ok (l', w') →
      w'.store = σ ∧ GL l' ∧ SL l' ∧ Blank.blank l' = Blank.blank l ∧
        ∃ k, StmtView.core l' = some k ∧ WellFormed k) :
    ∀ (t : Tree L), Good GL t → ∀ (t' : Tree L) (w w' : World), w.store = σ →
      Tree.prepareSim t w = .ok (t', w') →
      w'.store = σ ∧ Good GL t' ∧ Good SL t' ∧ Tree.blank t' = Tree.blank t ∧
        ∃ k, Tree.core t' = some k ∧ WellFormed k := by
  have loop : ∀ (ts : List (Tree L)), (∀ t ∈ ts, ∀ (t' : Tree L) (w w' : World), w.store = σ →
      Tree.prepareSim t w = .ok (t', w') →
      w'.store = σ ∧ Good GL t' ∧ Good SL t' ∧ Tree.blank t' = Tree.blank t ∧
        ∃ k, Tree.core t' = some k ∧ WellFormed k) →
      ∀ (ts' : List (Tree L)) (w w' : World), w.store = σ → Tree.prepareSimL ts w = .ok (ts', w') →
      w'.store = σ ∧ (∀ t ∈ ts', Good GL t) ∧ (∀ t ∈ ts', Good SL t) ∧ Tree.blankL ts' = Tree.blankL ts ∧
        ∃ ks, Tree.coreL ts' = some ks ∧ WellFormedL ks ∧ ks.length = ts.length := by
    intro ts
    induction ts with
    | nil =>
      intro _ ts' w w' hw h
      simp only [Tree.prepareSimL, pm_pure_iff, Prod.mk.injEq] at h
      rw [← h.1, ← h.2]
      exact ⟨hw, by simp, by simp, rfl, [], rfl, trivial, rfl⟩
    | cons t ts ih =>
      intro hm ts' w w' hw h
      simp only [Tree.prepareSimL] at h
      obtain ⟨t1, w1, h1, h⟩ := pm_bind.mp h
      obtain ⟨ts1, w2, h2, h⟩ := pm_bind.mp h
      rw [pm_pure_iff, Prod.mk.injEq] at h
      rw [← h.1, ← h.2]
      obtain ⟨e1, e0, e00, e2, k, e3, e4⟩ := hm t (by simp) t1 w w1 hw h1
      obtain ⟨f1, f0, f00, f2, ks, f3, f4, f5⟩ := ih (fun t ht => hm t (by simp [ht])) ts1 w1 w2 e1 h2
      refine ⟨f1, List.forall_mem_cons.mpr ⟨e0, f0⟩, List.forall_mem_cons.mpr ⟨e00, f00⟩, by simp only [Tree.blankL, e2, f2], k :: ks, ?_, ⟨e4, f4⟩, by simp [f5]⟩
      exact Tree.coreL_cons.mpr ⟨k, ks, e3, f3, rfl⟩
  intro t
  induction t using Tree.ind with
  | leaf l =>
    intro hg t' w w' hw h
    cases hg with
    | leaf _ hg =>
    simp only [Tree.prepareSim] at h
    obtain ⟨l1, w1, h1, h⟩ := pm_bind.mp h
    rw [pm_pure_iff, Prod.mk.injEq] at h
    rw [← h.1, ← h.2]
    obtain ⟨e1, e0, e00, e2, k, e3, e4⟩ := hprep l l1 w w1 hg hw h1
    exact ⟨e1, .leaf _ e0, .leaf _ e00, by simp only [Tree.blank, e2], k, e3, e4⟩
  | and s ts ih =>
    intro hg t' w w' hw h
    cases hg with
    | and _ _ hne hg =>
    simp only [Tree.prepareSim] at h
    obtain ⟨ts1, w1, h1, h⟩ := pm_bind.mp h
    rw [pm_pure_iff, Prod.mk.injEq] at h
    rw [← h.1, ← h.2]
    obtain ⟨e1, e0, e00, e2, ks, e3, e4, e5⟩ := loop ts (fun t ht => ih t ht (hg t ht)) ts1 w w1 hw h1
    have hl : ts1.length = ts.length := by
      have := congrArg List.length e2
      simpa [Tree.blankL_eq] using this
    have hne1 : ts1 ≠ [] := by
      rintro rfl
      exact hne (List.length_eq_zero_iff.mp hl.symm)
    refine ⟨e1, .and _ _ hne1 e0, .and _ _ hne1 e00, by simp only [Tree.blank, e2], .and false ks,
      by simp [Tree.core, e3], ?_, e4⟩
    · rintro rfl
      exact hne (List.length_eq_zero_iff.mp e5.symm)
  | or s ts ih =>
    intro hg t' w w' hw h
    cases hg with
    | or _ _ hne hg =>
    simp only [Tree.prepareSim] at h
    obtain ⟨ts1, w1, h1, h⟩ := pm_bind.mp h
    rw [pm_pure_iff, Prod.mk.injEq] at h
    rw [← h.1, ← h.2]
    obtain ⟨e1, e0, e00, e2, ks, e3, e4, e5⟩ := loop ts (fun t ht => ih t ht (hg t ht)) ts1 w w1 hw h1
    have hl : ts1.length = ts.length := by
      have := congrArg List.length e2
      simpa [Tree.blankL_eq] using this
    have hne1 : ts1 ≠ [] := by
      rintro rfl
      exact hne (List.length_eq_zero_iff.mp hl.symm)
    refine ⟨e1, .or _ _ hne1 e0, .or _ _ hne1 e00, by simp only [Tree.blank, e2], .or false ks,
      by simp [Tree.core, e3], ?_, e4⟩
    · rintro rfl
      exact hne (List.length_eq_zero_iff.mp e5.symm)

theorem candidates_mem : ∀ (ts : List (Tree L)) (i j : Nat), j ∈ PTree.candidates ts i →
    i ≤ j ∧ ∃ t, ts[j - i]? = some t ∧ t.simulated = false
  | [], i, j, h => by simp [PTree.candidates] at h
  | t :: ts, i, j, h => by
    simp only [PTree.candidates] at h
    have hrec : j ∈ PTree.candidates ts (i + 1) →
        i ≤ j ∧ ∃ u, (t :: ts)[j - i]? = some u ∧ u.simulated = false := by
      intro h
      obtain ⟨h1, u, h2, h3⟩ := candidates_mem ts (i + 1) j h
      refine ⟨by omega, u, ?_, h3⟩
      have : j - i = (j - (i + 1)) + 1 := by omega
      rw [this]; simpa using h2
    split at h
    · exact hrec h
    · rename_i hs
      rcases List.mem_cons.mp h with rfl | h
      · exact ⟨le_refl _, t, by simp, by simpa using hs⟩
      · exact hrec h

theorem choice_mem {possible : List Nat} {w w' : World} {i : Nat}
    (h : PTree.choice possible w = .ok (i, w')) : i ∈ possible ∧ w'.store = w.store := by
  unfold PTree.choice at h
  obtain ⟨j, w1, h1, h⟩ := pm_bind.mp h
  cases hx : possible[j.toNat]? with
  | some x =>
    simp only [hx] at h
    rw [pm_pure_iff, Prod.mk.injEq] at h
    rw [← h.1, ← h.2]
    exact ⟨List.mem_of_getElem? hx, (draw_ok h1).2.2.2⟩
  | none =>
    simp only [hx] at h
    exact (raise_ne.mp h).elim

theorem getProverActs_get : ∀ (ts : List (Tree L)) (d : Dict Int) (i : Nat),
    (PTree.getProverActs ts d : List (PM (Option (PTree E L P) × Tree L)))[i]? =
      ts[i]?.map fun t => PTree.getProver t d
  | [], d, i => by simp [PTree.getProverActs]
  | t :: ts, d, 0 => by simp [PTree.getProverActs]
  | t :: ts, d, i + 1 => by simpa [PTree.getProverActs] using getProverActs_get ts d i

theorem allSome_eq {α : Type} : ∀ {l : List (Option α)} {r : List α}, PTree.allSome l = some r →
    l = r.map some
  | [], r, h => by simp only [PTree.allSome, Option.some.injEq] at h; subst h; rfl
  | none :: l, r, h => by simp [PTree.allSome] at h
  | some a :: l, r, h => by
    simp only [PTree.allSome, Option.map_eq_some_iff] at h
    obtain ⟨r', h', rfl⟩ := h
    simp [allSome_eq h']

/-- Leaf laws of `get_prover`. -/
structure GetLaws (GL TL SL : L → Prop) (PL : P → Prop) (σ : Store) (d : Dict Int) : Prop where
  upd : updateSecretValues σ d = σ
  get : ∀ (l l' : L) (p? : Option P) (w w' : World), GL l → TL l → w.store = σ →
    ProverOps.getProver l d w = .ok ((p?, l'), w') →
    w'.store = σ ∧ GL l' ∧ Blank.blank l' = Blank.blank l ∧
      ∀ p, p? = some p → PL p ∧ Blank.blank (ProverOps.stmtOf p) = Blank.blank l
  prep : ∀ (l l' : L) (w w' : World), GL l → w.store = σ → StmtOps.prepareSim l w = .ok (l', w') →
    w'.store = σ ∧ GL l' ∧ SL l' ∧ Blank.blank l' = Blank.blank l ∧
      ∃ k, StmtView.core l' = some k ∧ WellFormed k
  simAcc : ∀ (l : L) (w w' : World) (d : Option (Dict Int)) (c : Option Int) (sim : Sim E),
      SL l → StmtOps.simulate l d c w = .ok (sim, w') → AcceptsT (.leaf l) sim.precommitment
  simLaw : ∀ (t : Tree L) (k : Core E), Tree.core t = some k → WellFormed k →
      ∀ (w w' : World) (d : Option (Dict Int)) (c : Option Int) (sim : Sim E),
      (∀ d0, d = some d0 → d0.Uniq w.store) → Tree.simulate t d c w = .ok (sim, w') →
      w'.store = w.store ∧ SimLaw w.store k sim d c

/-- `setup_simulations`. `ts` starts at position `index`. -/
theorem setup_law {GL TL SL : L → Prop} {PL : P → Prop} {σ : Store} {d : Dict Int}
    (hl : GetLaws GL TL SL PL σ d) (idx : Nat) : ∀ (ts : List (Tree L)) (index : Nat),
    (∀ t ∈ ts, Good GL t) → ∀ (ts' : List (Tree L)) (sims : List (Sim E)) (w w' : World), w.store = σ →
    PTree.setupSimulations idx ts index w = .ok ((ts', sims), w') →
    w'.store = σ ∧ (∀ t ∈ ts', Good GL t) ∧ Tree.blankL ts' = Tree.blankL ts ∧
      (∃ rest, rest = (if idx < index then ts' else ts'.eraseIdx (idx - index)) ∧
        List.Forall₂ AcceptsT rest (sims.map Sim.precommitment) ∧
        (∀ t ∈ rest, ∃ k, Tree.core t = some k ∧ WellFormed k) ∧ SimsOK σ rest sims ∧
        ∀ t ∈ rest, Good GL t ∧ Good SL t)
  | [], index, _, ts', sims, w, w', hw, h => by
    simp only [PTree.setupSimulations, pm_pure_iff, Prod.mk.injEq] at h
    obtain ⟨⟨rfl, rfl⟩, rfl⟩ := h
    refine ⟨hw, by simp, rfl, [], by simp, .nil, by simp, ⟨rfl, by simp⟩, by simp⟩
  | t :: ts, index, hg, ts', sims, w, w', hw, h => by
    simp only [PTree.setupSimulations] at h
    split at h
    · rename_i hi
      obtain ⟨⟨ts1, sims1⟩, w1, h1, h⟩ := pm_bind.mp h
      rw [pm_pure_iff, Prod.mk.injEq, Prod.mk.injEq] at h
      obtain ⟨⟨h2, h3⟩, h4⟩ := h
      obtain ⟨e1, e0, e2, rest, e3, e4, ec, e5, eg⟩ :=
        setup_law hl idx ts (index + 1) (fun t ht => hg t (by simp [ht])) ts1 sims1 w w1 hw h1
      rw [← h2, ← h3, ← h4]
      refine ⟨e1, List.forall_mem_cons.mpr ⟨hg t (by simp), e0⟩, by simp only [Tree.blankL, e2], rest, ?_, e4, ec, e5, eg⟩
      rw [e3, if_pos (by omega), if_neg (by omega)]
      simp [hi]
    · rename_i hi
      obtain ⟨t1, w1, h1, h⟩ := pm_bind.mp h
      obtain ⟨s1, w2, h2, h⟩ := pm_bind.mp h
      obtain ⟨⟨ts1, sims1⟩, w3, h3, h⟩ := pm_bind.mp h
      rw [pm_pure_iff, Prod.mk.injEq, Prod.mk.injEq] at h
      obtain ⟨⟨h4, h5⟩, h6⟩ := h
      obtain ⟨a1, a0, a00, a2, k, a3, a4⟩ := prepareSim_law GL SL σ hl.prep t (hg t (by simp)) t1 w w1 hw h1
      obtain ⟨b1, _, b2, ρ, _, b3⟩ := hl.simLaw t1 k a3 a4 w1 w2 none none s1 (by simp) h2
      have b4 := simulate_accepts SL hl.simAcc t1 a00 w1 w2 none none s1 h2
      rw [a1] at b1 b3
      obtain ⟨e1, e0, e2, rest, e3, e4, ec, ⟨e5, e6⟩, eg⟩ :=
        setup_law hl idx ts (index + 1) (fun t ht => hg t (by simp [ht])) ts1 sims1 w2 w3 b1 h3
      rw [← h4, ← h5, ← h6]
      refine ⟨e1, List.forall_mem_cons.mpr ⟨a0, e0⟩, by simp only [Tree.blankL, a2, e2], t1 :: rest, ?_,
        .cons b4 e4, List.forall_mem_cons.mpr ⟨⟨k, a3, a4⟩, ec⟩, ⟨by simp [e5], ?_⟩,
        List.forall_mem_cons.mpr ⟨⟨a0, a00⟩, eg⟩⟩
      · rw [e3]
        by_cases hlt : idx < index
        · rw [if_pos (by omega), if_pos hlt]
        · rw [if_neg (by omega), if_neg hlt]
          have : idx - index = (idx - (index + 1)) + 1 := by omega
          rw [this, List.eraseIdx_cons_succ]
      · intro j t sim ht hs
        cases j with
        | zero =>
          simp only [List.getElem?_cons_zero, Option.some.injEq] at ht hs
          subst ht; subst hs
          exact ⟨k, a3, b2, _, b3⟩
        | succ j => exact e6 j t sim (by simpa using ht) (by simpa using hs)

/-- The clauses that a prover simulates satisfy `GL` and `SL`. -/
inductive Aside (GL SL : L → Prop) : PTree E L P → Prop
  | leaf (p : P) : Aside GL SL (.leaf p)
  | and (s : Bool) (subs : List (PTree E L P)) (hne : subs ≠ []) (h : ∀ p ∈ subs, Aside GL SL p) :
      Aside GL SL (.and s subs)
  | or (s : Bool) (idx : Nat) (stmts : List (Tree L)) (sub : PTree E L P) (sims : List (Sim E))
      (hs : ∀ t ∈ stmts.eraseIdx idx, Good GL t ∧ Good SL t)
      (h : Aside GL SL sub) : Aside GL SL (.or s idx stmts sub sims)

/-- **`get_prover`.** -/
theorem getProver_full {GL TL SL : L → Prop} {PL : P → Prop} {σ : Store} {d : Dict Int}
    (hl : GetLaws GL TL SL PL σ d) (X : Key → Int) : ∀ (t : Tree L), Good GL t → Sat TL t →
    ∀ (t' : Tree L) (p? : Option (PTree E L P)) (w w' : World), w.store = σ →
    PTree.getProver t d w = .ok ((p?, t'), w') →
    w'.store = σ ∧ Good GL t' ∧ Tree.blank t' = Tree.blank t ∧
      ∀ p, p? = some p → Primed PL p ∧ Honest (fun p _ => PL p) σ p X ∧
        Tree.blank (PTree.stmtOf p) = Tree.blank t ∧ Aside GL SL p := by
  intro t
  induction t using Tree.ind with
  | leaf l =>
    intro hg hs t' p? w w' hw h
    cases hg with
    | leaf _ hg =>
    cases hs with
    | leaf _ hs =>
    simp only [PTree.getProver] at h
    obtain ⟨⟨p1, l1⟩, w1, h1, h⟩ := pm_bind.mp h
    rw [pm_pure_iff, Prod.mk.injEq, Prod.mk.injEq] at h
    obtain ⟨⟨h2, h3⟩, h4⟩ := h
    rw [← h3, ← h4]
    obtain ⟨e1, e2, e3, e4⟩ := hl.get l l1 p1 w w1 hg hs hw h1
    refine ⟨e1, .leaf _ e2, by simp only [Tree.blank, e3], ?_⟩
    intro p hp
    rw [← h2] at hp
    simp only [Option.map_eq_some_iff] at hp
    obtain ⟨q, hq, rfl⟩ := hp
    obtain ⟨f1, f2⟩ := e4 q hq
    exact ⟨.leaf q f1, .leaf q X f1, by simp only [PTree.stmtOf, Tree.blank, f2], .leaf q⟩
  | and s ts ih =>
    intro hg hs t' p? w w' hw h
    have hgg := hg
    cases hg with
    | and _ _ hne hg =>
    cases hs with
    | and _ _ hs =>
    simp only [PTree.getProver] at h
    rw [pm_getStore_bind, pm_setStore_bind] at h
    have hup : ({ w with store := updateSecretValues w.store d } : World) = w := by
      rw [hw, hl.upd, ← hw]
    rw [hup] at h
    split at h
    · rw [pm_pure_iff, Prod.mk.injEq, Prod.mk.injEq] at h
      obtain ⟨⟨h2, h3⟩, h4⟩ := h
      rw [← h2, ← h3, ← h4]
      exact ⟨hw, hgg, rfl, by simp⟩
    · obtain ⟨⟨ps, ts1⟩, w1, h1, h⟩ := pm_bind.mp h
      have loop : ∀ (us : List (Tree L)), (∀ t ∈ us, t ∈ ts) → ∀ (ps : List (Option (PTree E L P)))
          (us' : List (Tree L)) (w w' : World), w.store = σ →
          PTree.getProverL us d w = .ok ((ps, us'), w') →
          w'.store = σ ∧ (∀ t ∈ us', Good GL t) ∧ Tree.blankL us' = Tree.blankL us ∧
          ∀ qs, PTree.allSome ps = some qs → (∀ p ∈ qs, Primed PL p) ∧
            (∀ p ∈ qs, Honest (fun p _ => PL p) σ p X) ∧
            Tree.blankL (PTree.stmtOfL qs) = Tree.blankL us ∧ ∀ p ∈ qs, Aside GL SL p := by
        intro us
        induction us with
        | nil =>
          intro _ ps us' w w' hw h
          simp only [PTree.getProverL, pm_pure_iff, Prod.mk.injEq] at h
          obtain ⟨⟨rfl, rfl⟩, rfl⟩ := h
          refine ⟨hw, by simp, rfl, ?_⟩
          intro qs hqs
          simp only [PTree.allSome, Option.some.injEq] at hqs
          subst hqs
          exact ⟨by simp, by simp, rfl, by simp⟩
        | cons u us ihl =>
          intro hm ps us' w w' hw h
          simp only [PTree.getProverL] at h
          obtain ⟨⟨p1, u1⟩, w1, h1, h⟩ := pm_bind.mp h
          obtain ⟨⟨ps1, us1⟩, w2, h2, h⟩ := pm_bind.mp h
          rw [pm_pure_iff, Prod.mk.injEq, Prod.mk.injEq] at h
          obtain ⟨⟨h3, h4⟩, h5⟩ := h
          have hu := hm u (by simp)
          obtain ⟨e1, e2, e3, e4⟩ := ih u hu (hg u hu) (hs u hu) u1 p1 w w1 hw h1
          obtain ⟨f1, f2, f3, f4⟩ := ihl (fun t ht => hm t (by simp [ht])) ps1 us1 w1 w2 e1 h2
          rw [← h3, ← h4, ← h5]
          refine ⟨f1, ?_, by simp only [Tree.blankL, e3, f3], ?_⟩
          · intro t ht
            rcases List.mem_cons.mp ht with rfl | ht
            · exact e2
            · exact f2 t ht
          · intro qs hqs
            cases p1 with
            | none => simp [PTree.allSome] at hqs
            | some p1 =>
              simp only [PTree.allSome, Option.map_eq_some_iff] at hqs
              obtain ⟨qs1, hqs1, rfl⟩ := hqs
              obtain ⟨g1, g2, g3, g4⟩ := e4 p1 rfl
              obtain ⟨k1, k2, k3, k4⟩ := f4 qs1 hqs1
              refine ⟨?_, ?_, by simp only [PTree.stmtOfL, Tree.blankL, g3, k3],
                List.forall_mem_cons.mpr ⟨g4, k4⟩⟩
              · intro p hp
                rcases List.mem_cons.mp hp with rfl | hp
                · exact g1
                · exact k1 p hp
              · intro p hp
                rcases List.mem_cons.mp hp with rfl | hp
                · exact g2
                · exact k2 p hp
      obtain ⟨f1, f2, f3, f4⟩ := loop ts (fun _ h => h) ps ts1 w w1 hw h1
      cases hqs : PTree.allSome ps with
      | none =>
        simp only [hqs] at h
        exact (raise_ne.mp h).elim
      | some qs =>
        simp only [hqs] at h
        rw [pm_pure_iff, Prod.mk.injEq, Prod.mk.injEq] at h
        obtain ⟨⟨h2, h3⟩, h4⟩ := h
        rw [← h2, ← h3, ← h4]
        obtain ⟨k1, k2, k3, k4⟩ := f4 qs hqs
        refine ⟨f1, .and _ _ ?_ f2, by simp only [Tree.blank, f3], ?_⟩
        · rintro rfl
          cases ts with
          | nil => exact hne rfl
          | cons => simp [Tree.blankL] at f3
        · intro p hp
          simp only [Option.some.injEq] at hp
          subst hp
          have hqs : qs ≠ [] := by
            rintro rfl
            cases ts with
            | nil => exact hne rfl
            | cons => simp [PTree.stmtOfL, Tree.blankL] at k3
          exact ⟨.and _ _ hqs k1, .and _ _ _ k2, by simp only [PTree.stmtOf, Tree.blank, k3], .and _ _ hqs k4⟩
  | or s ts ih =>
    intro hg hs t' p? w w' hw h
    have hgg := hg
    cases hg with
    | or _ _ hne hg =>
    cases hs with
    | or _ _ hs =>
    simp only [PTree.getProver] at h
    rw [pm_getStore_bind, pm_setStore_bind] at h
    have hup : ({ w with store := updateSecretValues w.store d } : World) = w := by
      rw [hw, hl.upd, ← hw]
    rw [hup] at h
    split at h
    · rw [pm_pure_iff, Prod.mk.injEq, Prod.mk.injEq] at h
      obtain ⟨⟨h2, h3⟩, h4⟩ := h
      rw [← h2, ← h3, ← h4]
      exact ⟨hw, hgg, rfl, by simp⟩
    · obtain ⟨⟨r, ts1⟩, w1, h1, h⟩ := pm_bind.mp h
      have loop : ∀ (fuel : Nat) (possible : List Nat), (∀ i ∈ possible, i ∈ PTree.candidates ts 0) →
          ∀ (us : List (Tree L)), (∀ t ∈ us, Good GL t) → Tree.blankL us = Tree.blankL ts →
          ∀ (r : Option (Nat × PTree E L P)) (us' : List (Tree L)) (w w' : World), w.store = σ →
          PTree.orLoop (PTree.getProverActs ts d) fuel possible us w = .ok ((r, us'), w') →
          w'.store = σ ∧ (∀ t ∈ us', Good GL t) ∧ Tree.blankL us' = Tree.blankL ts ∧
          ∀ i p, r = some (i, p) → i < ts.length ∧ Primed PL p ∧ Honest (fun p _ => PL p) σ p X ∧
            (∀ t, ts[i]? = some t → Tree.blank (PTree.stmtOf p) = Tree.blank t) ∧ Aside GL SL p := by
        intro fuel
        induction fuel with
        | zero =>
          intro possible _ us hus hb r us' w w' hw h
          simp only [PTree.orLoop, pm_pure_iff, Prod.mk.injEq] at h
          obtain ⟨⟨rfl, rfl⟩, rfl⟩ := h
          exact ⟨hw, hus, hb, by simp⟩
        | succ fuel ihf =>
          intro possible hc us hus hb r us' w w' hw h
          simp only [PTree.orLoop] at h
          split at h
          · rw [pm_pure_iff, Prod.mk.injEq, Prod.mk.injEq] at h
            obtain ⟨⟨rfl, rfl⟩, rfl⟩ := h
            exact ⟨hw, hus, hb, by simp⟩
          · obtain ⟨i, w1, h1, h⟩ := pm_bind.mp h
            obtain ⟨hi, hw1⟩ := choice_mem h1
            rw [hw] at hw1
            obtain ⟨_, u, hu, husim⟩ := candidates_mem ts 0 i (hc i hi)
            simp only [Nat.sub_zero] at hu
            have hum := List.mem_of_getElem? hu
            rw [getProverActs_get, hu] at h
            simp only [Option.map_some] at h
            obtain ⟨⟨p1, u1⟩, w2, h2, h⟩ := pm_bind.mp h
            obtain ⟨e1, e2, e3, e4⟩ := ih u hum (hg u hum) (hs u hum husim) u1 p1 w1 w2 hw1 h2
            have hb' : Tree.blankL (us.set i u1) = Tree.blankL ts := by
              rw [Tree.blankL_eq] at hb ⊢
              rw [List.map_set, hb, e3, Tree.blankL_eq]
              refine List.ext_getElem? fun j => ?_
              rw [List.getElem?_set]
              split
              · rename_i hij; subst hij
                split
                · simp [hu]
                · rename_i hlt
                  simp only [List.length_map] at hlt
                  exact absurd (List.getElem?_eq_some_iff.mp hu).1 hlt
              · rfl
            have hus' : ∀ t ∈ us.set i u1, Good GL t := by
              intro t ht
              rcases List.mem_or_eq_of_mem_set ht with ht | rfl
              · exact hus t ht
              · exact e2
            cases p1 with
            | some p1 =>
              simp only at h
              rw [pm_pure_iff, Prod.mk.injEq, Prod.mk.injEq] at h
              obtain ⟨⟨h3, h4⟩, h5⟩ := h
              rw [← h3, ← h4, ← h5]
              refine ⟨e1, hus', hb', ?_⟩
              intro j p hj
              simp only [Option.some.injEq, Prod.mk.injEq] at hj
              obtain ⟨rfl, rfl⟩ := hj
              obtain ⟨g1, g2, g3, g4⟩ := e4 p1 rfl
              refine ⟨(List.getElem?_eq_some_iff.mp hu).1, g1, g2, ?_, g4⟩
              intro t ht
              rw [hu] at ht; cases ht
              exact g3
            | none =>
              simp only at h
              exact ihf (possible.erase i) (fun j hj => hc j (List.mem_of_mem_erase hj))
                (us.set i u1) hus' hb' r us' w2 w' e1 h
      obtain ⟨f1, f2, f3, f4⟩ := loop _ _ (fun _ h => h) ts hg rfl r ts1 w w1 hw h1
      have hlen : ts1.length = ts.length := by
        have := congrArg List.length f3
        simpa [Tree.blankL_eq] using this
      cases r with
      | none =>
        simp only at h
        rw [pm_pure_iff, Prod.mk.injEq, Prod.mk.injEq] at h
        obtain ⟨⟨h2, h3⟩, h4⟩ := h
        rw [← h2, ← h3, ← h4]
        refine ⟨f1, .or _ _ ?_ f2, by simp only [Tree.blank, f3], by simp⟩
        rintro rfl
        exact hne (List.length_eq_zero_iff.mp hlen.symm)
      | some ip =>
        obtain ⟨i, p⟩ := ip
        simp only at h
        obtain ⟨⟨ts2, sims⟩, w2, h2, h⟩ := pm_bind.mp h
        rw [pm_pure_iff, Prod.mk.injEq, Prod.mk.injEq] at h
        obtain ⟨⟨h3, h4⟩, h5⟩ := h
        rw [← h3, ← h4, ← h5]
        obtain ⟨g1, g0, g2, rest, g3, g4, gc, g5, gg⟩ := setup_law hl i ts1 0 f2 ts2 sims w1 w2 f1 h2
        simp only [Nat.not_lt_zero, if_false, Nat.sub_zero] at g3
        subst g3
        obtain ⟨i1, i2, i3, i4, i5⟩ := f4 i p rfl
        have hlen2 : ts2.length = ts1.length := by
          have := congrArg List.length g2
          simpa [Tree.blankL_eq] using this
        refine ⟨g1, .or _ _ ?_ g0, by simp only [Tree.blank, g2, f3], ?_⟩
        · rintro rfl
          exact hne (List.length_eq_zero_iff.mp (hlen2.trans hlen).symm)
        · intro q hq
          simp only [Option.some.injEq] at hq
          subst hq
          refine ⟨.or _ _ _ _ _ (by omega) g4 gc i2, .or _ _ _ _ _ _ _ (by omega) g5 i3, ?_,
            .or _ _ _ _ _ gg i5⟩
          simp only [PTree.stmtOf, Tree.blank]
          congr 1
          rw [← f3, ← g2, Tree.blankL_eq, Tree.blankL_eq, List.map_set]
          obtain ⟨u, hu⟩ : ∃ u, ts[i]? = some u := ⟨_, List.getElem?_eq_getElem i1⟩
          rw [i4 u hu]
          refine List.ext_getElem? fun j => ?_
          rw [List.getElem?_set]
          split
          · rename_i hij; subst hij
            have e : (ts2.map Tree.blank)[i]? = (ts.map Tree.blank)[i]? := by
              rw [← Tree.blankL_eq, ← Tree.blankL_eq, g2, f3]
            rw [e]
            rw [if_pos (by simp; omega)]
            simp [hu]
          · rfl

/-- `getProver_full` without the simulated clauses. -/
theorem getProver_law {GL TL SL : L → Prop} {PL : P → Prop} {σ : Store} {d : Dict Int}
    (hl : GetLaws GL TL SL PL σ d) (X : Key → Int) (t : Tree L) (hg : Good GL t) (hs : Sat TL t)
    (t' : Tree L) (p? : Option (PTree E L P)) (w w' : World) (hw : w.store = σ)
    (h : PTree.getProver t d w = .ok ((p?, t'), w')) :
    w'.store = σ ∧ Good GL t' ∧ Tree.blank t' = Tree.blank t ∧
      ∀ p, p? = some p → Primed PL p ∧ Honest (fun p _ => PL p) σ p X ∧
        Tree.blank (PTree.stmtOf p) = Tree.blank t := by
  obtain ⟨h1, h2, h3, h4⟩ := getProver_full hl X t hg hs t' p? w w' hw h
  exact ⟨h1, h2, h3, fun p hp => ⟨(h4 p hp).1, (h4 p hp).2.1, (h4 p hp).2.2.1⟩⟩
end

end Zksk
