import Verif.Lemmas.Progress2

/-! Runs as functions of the random numbers drawn: provers and simulators of statements without
disjunctions. -/

set_option linter.unusedSectionVars false

namespace Zksk

open Spec

variable {E : Type} [AddCommGroup E] [DecidableEq E]

/-! ### Responses determined by one number per secret -/

mutual
/-- The responses of a statement without disjunctions when secret `x` is answered with `f x`. -/
def fill (f : Sec → Int) : Core E → Val E
  | .leaf s => .list (s.secretVars.map fun x => .int (f x))
  | .and _ subs => .list (fillL f subs)
  | .or _ _ => .none
/-- `fill` for lists. -/
def fillL (f : Sec → Int) : List (Core E) → List (Val E)
  | [] => []
  | t :: ts => fill f t :: fillL f ts
end

mutual
theorem fill_congr {f g : Sec → Int} : ∀ (t : Core E), (∀ x ∈ secrets t, f x = g x) → fill f t = fill g t
  | .leaf s, h => by
    simp only [fill, Val.list.injEq]
    exact List.map_congr_left fun x hx => by rw [h x (by simpa [secrets] using hx)]
  | .and _ subs, h => by
    simp only [fill, fillL_congr subs (by simpa [secrets] using h)]
  | .or _ subs, _ => rfl
theorem fillL_congr {f g : Sec → Int} : ∀ (ts : List (Core E)), (∀ x ∈ secretsL ts, f x = g x) →
    fillL f ts = fillL g ts
  | [], _ => rfl
  | t :: ts, h => by
    simp only [fillL]
    rw [fill_congr t fun x hx => h x (by simp [secretsL, hx]),
      fillL_congr ts fun x hx => h x (by simp [secretsL, hx])]
end

mutual
theorem fill_blank {f : Sec → Int} : ∀ (t : Core E), fill f (Tree.blank t) = fill f t
  | .leaf s => rfl
  | .and _ subs => by simp only [fill, Tree.blank, fillL_blank subs]
  | .or _ subs => rfl
theorem fillL_blank {f : Sec → Int} : ∀ (ts : List (Core E)), fillL f (Tree.blankL ts) = fillL f ts
  | [] => rfl
  | t :: ts => by simp only [fillL, Tree.blankL, fill_blank t, fillL_blank ts]
end

/-! ### Given dictionaries -/

theorem update_given {vars : List Sec} {getR : PM (Dict Int)} {d : Dict Int} {w : World}
    (h : ∀ x ∈ vars, ∃ v, Dict.get? w.store d x = some v) :
    Tree.updateRandomizersWith (.ok vars) getR (some d) w = .ok (d, w) := by
  simp only [Tree.updateRandomizersWith]
  rw [pm_getStore_bind, pm_liftE_bind, if_neg]
  · rfl
  · rw [List.any_eq_true]
    rintro ⟨x, hx, hn⟩
    obtain ⟨v, hv⟩ := h x hx
    simp [Dict.has, hv] at hn

theorem update_none {vars : Except Err (List Sec)} {getR : PM (Dict Int)} {w : World}
    {r : Dict Int × World} (h : getR w = .ok r) :
    Tree.updateRandomizersWith vars getR none w = .ok r := h

theorem lookupAll_eq {σ : Store} {d : Dict Int} : ∀ {l : List Sec},
    (∀ x ∈ l, ∃ v, Dict.get? σ d x = some v) →
    DLRep.lookupAll σ d l = .ok (l.map fun x => (Dict.get? σ d x).getD 0)
  | [], _ => rfl
  | x :: l, h => by
    obtain ⟨v, hv⟩ := h x (by simp)
    have := lookupAll_eq (l := l) fun y hy => h y (by simp [hy])
    simp [DLRep.lookupAll, Dict.get, hv, this, bind_ok]

/-- Conjunctions only, for provers. -/
inductive OrFreeP : CoreProver E → Prop
  | leaf (p : DLRepProver E) : OrFreeP (.leaf p)
  | and (s : Bool) (subs : List (CoreProver E)) (h : ∀ p ∈ subs, OrFreeP p) : OrFreeP (.and s subs)

/-- An honest prover that is given the randomizers draws nothing, and its responses are determined. -/
theorem commit_given {σ : Store} {X : Key → Int} : ∀ (p : CoreProver E), OrFreeP p →
    Primed (FitRep σ X) p → ∀ (q : Key → Nat), OrdersOK σ q (PTree.stmtOf p) →
    ∀ (d : Dict Int) (w w' : World) (com : Val E) (p' : CoreProver E), w.store = σ → 
    (∀ x ∈ secrets (PTree.stmtOf p), ∃ v, Dict.get? σ d x = some v) →
    PTree.internalCommit p (some d) w = .ok ((com, p'), w') →
    w' = w ∧ ∀ (c : Int) (w1 : World), w1.store = σ → PTree.computeResponse p' c w1 =
      .ok (fill (fun x => (X (σ.key x) * c + (Dict.get? σ d x).getD 0) % (q (σ.key x) : Int))
        (PTree.stmtOf p), w1) := by
  intro p
  induction p using PTree.ind with
  | leaf p =>
    intro _ hp q hq d w w' com p' hw hd h
    cases hp with
    | leaf _ hp =>
    obtain ⟨⟨hs, _⟩, hwf, hvals, _, _⟩ := hp
    simp only [PTree.internalCommit, ProverOps.internalCommit] at h
    obtain ⟨⟨v, p1⟩, w1, h1, h⟩ := pm_bind.mp h
    simp only [pm_pure_iff, Prod.mk.injEq] at h
    obtain ⟨⟨rfl, rfl⟩, rfl⟩ := h
    have hd : ∀ x ∈ p.stmt.secretVars, ∃ v, Dict.get? σ d x = some v := hd
    subst hw
    simp only [DLRepProver.internalCommit, DLRep.updateRandomizers] at h1
    rw [pm_bind_eq (update_given hd), pm_getStore_bind, pm_liftE_bind_iff] at h1
    obtain ⟨ks, hks, h1⟩ := h1
    obtain ⟨cm, hcm, h1⟩ := pm_liftE_bind_iff.mp h1
    rw [pm_pure_iff, Prod.mk.injEq, Prod.mk.injEq] at h1
    obtain ⟨⟨_, hp1⟩, rfl⟩ := h1
    refine ⟨rfl, fun c w2 hw2 => ?_⟩
    have hks' : ks = p.stmt.secretVars.map fun x => (Dict.get? w.store d x).getD 0 := by
      rw [lookupAll_eq hd] at hks
      exact (Except.ok.inj hks).symm
    subst hp1
    simp only [PTree.computeResponse, ProverOps.computeResponse, DLRepProver.computeResponse]
    rw [pm_getStore_bind]
    cases hbs : p.stmt.bases with
    | nil => exact (hs.2.1 hbs).elim
    | cons b bs =>
      simp only
      rw [hw2, respondGo_ok w.store _ _ c X _ _ hvals (by simp [hks']), pm_liftE_bind]
      simp only [PTree.stmtOf, fill, pm_pure_iff, Prod.mk.injEq, Val.list.injEq, and_true]
      rw [hks', List.zipWith_map_right, List.zipWith_self, List.map_map]
      refine List.map_congr_left fun x hx => ?_
      simp only [Function.comp, Val.int.injEq]
      have : q (w.store.key x) = b.grp.order := by
        obtain ⟨c', hc⟩ := Tree.mem_zip_left hx (le_of_eq hs.1)
        rw [hq x c' (show (x, c') ∈ p.stmt.secretVars.zip p.stmt.bases from hc), hs.2.2.1 c' (List.of_mem_zip hc).2,
          ← hs.2.2.1 b (by simp [hbs])]
      rw [this]
  | and s subs ih =>
    intro hf hp q hq d w w' com p' hw hd h
    cases hf with
    | and _ _ hf =>
    cases hp with
    | and _ _ hne hp =>
    simp only [PTree.internalCommit] at h
    rw [pm_getStore_bind, pm_liftE_bind_iff] at h
    obtain ⟨_, _, h⟩ := h
    obtain ⟨d', w1, h1, h⟩ := pm_bind.mp h
    obtain ⟨⟨vs, ps⟩, w2, h2, h⟩ := pm_bind.mp h
    simp only [pm_pure_iff, Prod.mk.injEq] at h
    obtain ⟨⟨_, rfl⟩, rfl⟩ := h
    have hu : Tree.updateRandomizers (Tree.and s (PTree.stmtOfL subs)) (some d) w = .ok (d, w) := by
      unfold Tree.updateRandomizers
      rw [secretVars_core]
      exact update_given (by rw [hw]; exact hd)
    rw [hu] at h1
    injection h1 with h1
    injection h1 with e1 e2
    subst e1; subst e2
    have key : ∀ (ps ps' : List (CoreProver E)) (vs : List (Val E)) (w' : World), (∀ p ∈ ps, p ∈ subs) →
        PTree.internalCommitL ps d w = .ok ((vs, ps'), w') → w' = w ∧ ∀ (c : Int) (w1 : World),
        w1.store = σ → PTree.computeResponseL ps' c w1 = .ok (fillL (fun x =>
          (X (σ.key x) * c + (Dict.get? σ d x).getD 0) % (q (σ.key x) : Int)) (PTree.stmtOfL ps), w1) := by
      intro ps
      induction ps with
      | nil =>
        intro ps' vs w' _ h
        simp only [PTree.internalCommitL, pm_pure_iff, Prod.mk.injEq] at h
        obtain ⟨⟨_, rfl⟩, rfl⟩ := h
        exact ⟨rfl, fun _ _ _ => rfl⟩
      | cons p ps ihp =>
        intro ps' vs w' hsub h
        simp only [PTree.internalCommitL] at h
        obtain ⟨⟨v, p1⟩, w1, h1, h⟩ := pm_bind.mp h
        obtain ⟨⟨vs', ps1⟩, w2, h2', h⟩ := pm_bind.mp h
        simp only [pm_pure_iff, Prod.mk.injEq] at h
        obtain ⟨⟨_, rfl⟩, rfl⟩ := h
        have hm : p ∈ subs := hsub p (by simp)
        have hm' : PTree.stmtOf p ∈ PTree.stmtOfL subs := mem_stmtOfL hm
        obtain ⟨rfl, g2⟩ := ih p hm (hf p hm) (hp p hm) q
          (fun x b hx => hq x b (by simp only [PTree.stmtOf, terms]; exact mem_termsL.mpr ⟨_, hm', hx⟩))
          d _ _ _ _ hw
          (fun x hx => hd x (by simp only [PTree.stmtOf, secrets]; exact mem_secretsL.mpr ⟨_, hm', hx⟩)) h1
        obtain ⟨rfl, g4⟩ := ihp ps1 vs' w2 (fun p hp => hsub p (by simp [hp])) h2'
        refine ⟨rfl, fun c w1 hw1 => ?_⟩
        simp only [PTree.computeResponseL]
        rw [pm_bind_eq (g2 c w1 hw1), pm_bind_eq (g4 c w1 hw1)]
        rfl
    obtain ⟨rfl, k2⟩ := key subs ps vs _ (fun p hp => hp) h2
    refine ⟨rfl, fun c w1 hw1 => ?_⟩
    simp only [PTree.computeResponse]
    rw [pm_bind_eq (k2 c w1 hw1)]
    rfl
  | or s i stmts sub sims ih =>
    intro hf
    cases hf

/-- A simulator that is given the responses draws nothing, and answers with them. -/
theorem simulate_given : ∀ (t : Core E), OrFree t → ∀ (d : Dict Int) (c : Int) (w w' : World) (sim : Sim E),
    (∀ x ∈ secrets t, ∃ v, Dict.get? w.store d x = some v) →
    Tree.simulate t (some d) (some c) w = .ok (sim, w') →
    w' = w ∧ sim.challenge = c ∧ sim.responses = fill (fun x => (Dict.get? w.store d x).getD 0) t ∧
      sim.precommitment = plainPrecommitment t := by
  intro t
  induction t using Tree.ind with
  | leaf s =>
    intro _ d c w w' sim hd h
    simp only [Tree.simulate, StmtOps.simulate, DLRep.simulate, DLRep.updateRandomizers] at h
    simp only [secrets] at hd
    rw [pm_bind_eq (update_given hd)] at h
    simp only [Tree.challengeOrDraw, pure_bind] at h
    rw [pm_getStore_bind, lookupAll_eq hd, pm_liftE_bind, pm_liftE_bind_iff] at h
    obtain ⟨com, _, h⟩ := h
    rw [pm_pure_iff, Prod.mk.injEq] at h
    obtain ⟨rfl, rfl⟩ := h
    refine ⟨rfl, rfl, ?_, rfl⟩
    simp [fill]
  | and s subs ih =>
    intro hf d c w w' sim hd h
    cases hf with
    | all _ _ hf =>
    simp only [Tree.simulate, Tree.updateRandomizers] at h
    rw [secretVars_core, pm_bind_eq (update_given hd)] at h
    simp only [Tree.challengeOrDraw, pure_bind] at h
    obtain ⟨sims, w1, h1, h⟩ := pm_bind.mp h
    simp only [pm_pure_iff, Prod.mk.injEq] at h
    obtain ⟨rfl, rfl⟩ := h
    have key : ∀ (ts : List (Core E)) (sims : List (Sim E)) (w' : World), (∀ t ∈ ts, t ∈ subs) →
        Tree.simulateAnd ts d c w = .ok (sims, w') → w' = w ∧
        sims.map Sim.responses = fillL (fun x => (Dict.get? w.store d x).getD 0) ts ∧
        sims.map Sim.precommitment = plainPrecommitmentL ts := by
      intro ts
      induction ts with
      | nil =>
        intro sims w' _ h
        simp only [Tree.simulateAnd, pm_pure_iff, Prod.mk.injEq] at h
        obtain ⟨rfl, rfl⟩ := h
        exact ⟨rfl, rfl, rfl⟩
      | cons t ts iht =>
        intro sims w' hsub h
        simp only [Tree.simulateAnd] at h
        obtain ⟨s1, w1, h1, h⟩ := pm_bind.mp h
        obtain ⟨ss, w2, h2, h⟩ := pm_bind.mp h
        simp only [pm_pure_iff, Prod.mk.injEq] at h
        obtain ⟨rfl, rfl⟩ := h
        have hm := hsub t (by simp)
        obtain ⟨rfl, _, g1, g2⟩ := ih t hm (hf t hm) d c w w1 s1
          (fun x hx => hd x (by simp only [secrets]; exact mem_secretsL.mpr ⟨_, hm, hx⟩)) h1
        obtain ⟨rfl, g3, g4⟩ := iht ss w2 (fun t ht => hsub t (by simp [ht])) h2
        exact ⟨rfl, by simp [fillL, g1, g3], by simp [plainPrecommitmentL, g2, g4]⟩
    obtain ⟨rfl, k1, k2⟩ := key subs sims _ (fun t ht => ht) h1
    exact ⟨rfl, rfl, by simp only [fill, k1], by simp only [plainPrecommitment, k2]⟩
  | or s subs ih =>
    intro hf
    cases hf

/-! ### The draws -/

/-- Which numbers are drawn for a statement: one for each distinct secret, below the order of the group
of one of its bases. -/
def table (σ : Store) : Core E → Dict Nat
  | .leaf s => (Tree.dedupGo σ s.secretVars []).map fun x => (x, (s.bases.head?.map fun b => b.grp.order).getD 0)
  | t => Tree.orderDict σ (secrets t) (coreBases t)

/-- The numbers drawn from a stream. -/
def draws : Dict Nat → (Nat → Nat) → Dict Int
  | [], _ => []
  | (u, o) :: D, rng => (u, ((rng 0 % o : Nat) : Int)) :: draws D fun i => rng (i + 1)

theorem drawDict_eq : ∀ (D : Dict Nat) (w : World), (∀ e ∈ D, e.2 ≠ 0) →
    Tree.drawDict D w = .ok (draws D w.rng, ⟨w.store, fun i => w.rng (i + D.length)⟩)
  | [], w, _ => rfl
  | (u, o) :: D, w, h => by
    simp only [Tree.drawDict]
    have h1 : draw o w = .ok (((w.rng 0 % o : Nat) : Int), ⟨w.store, fun i => w.rng (i + 1)⟩) := by
      unfold draw; rw [if_neg (h (u, o) (by simp))]
    rw [pm_bind_eq h1, pm_bind_eq (drawDict_eq D _ fun e he => h e (by simp [he]))]
    simp only [pm_pure_iff, draws, List.length_cons, Prod.mk.injEq, true_and]
    congr 1

theorem drawAll_eq (o : Nat) : ∀ (l : List Sec), DLRep.drawAll o l = Tree.drawDict (l.map fun x => (x, o))
  | [] => rfl
  | x :: l => by simp only [DLRep.drawAll, List.map_cons, Tree.drawDict, drawAll_eq o l]

theorem table_nonzero {σ : Store} {t : Core E} (h : Good SolidRep t) : ∀ e ∈ table σ t, e.2 ≠ 0 := by
  cases h with
  | leaf s hs =>
    intro e he
    simp only [table, List.mem_map] at he
    obtain ⟨x, _, rfl⟩ := he
    cases hbs : s.bases with
    | nil => exact (hs.2.1 hbs).elim
    | cons b bs =>
      simp only [List.head?_cons, Option.map_some, Option.getD_some]
      rw [hs.2.2.1 b (by simp [hbs])]; exact hs.2.2.2
  | and s ts hne hg => exact orderDict_nonzero _ _ _ (bases_of_good (.and s ts hne hg))
  | or s ts hne hg => exact orderDict_nonzero _ _ _ (bases_of_good (.or s ts hne hg))

/-- The world after the draws for `t`. -/
def after (w : World) (t : Core E) : World := ⟨w.store, fun i => w.rng (i + (table w.store t).length)⟩

theorem getRandomizers_dlrep_eq {s : DLRep E} (hs : SolidRep s) (w : World) :
    DLRep.getRandomizers s w = .ok (draws (table w.store (.leaf s)) w.rng, after w (.leaf s)) := by
  have := drawDict_eq (table w.store (.leaf s)) w (table_nonzero (.leaf s hs))
  unfold DLRep.getRandomizers
  cases hbs : s.bases with
  | nil => exact (hs.2.1 hbs).elim
  | cons b bs =>
    simp only
    rw [pm_getStore_bind, drawAll_eq]
    simpa [table, hbs, after] using this

theorem getRandomizers_and_eq {b : Bool} {ts : List (Core E)} (hg : Good SolidRep (.and b ts)) (w : World) :
    Tree.getRandomizers (.and b ts) w =
      .ok (draws (table w.store (.and b ts)) w.rng, after w (.and b ts)) := by
  have := drawDict_eq (table w.store (.and b ts)) w (table_nonzero hg)
  unfold Tree.getRandomizers
  rw [pm_getStore_bind, secretVars_core, bases_core, pm_liftE_bind, pm_liftE_bind]
  exact this

/-- The numbers drawn cover all secrets. -/
theorem draws_cover {t : Core E} (hg : Good SolidRep t) (hf : OrFree t) (w : World) :
    ∀ x ∈ secrets t, ∃ v, Dict.get? w.store (draws (table w.store t) w.rng) x = some v := by
  cases hf with
  | rep s =>
    cases hg with
    | leaf _ hs => exact (DLRep.getRandomizers_ok (getRandomizers_dlrep_eq hs w)).2.2
  | all b ts hf =>
    exact (Tree.getRandomizers_ok (secretVars_core _) (bases_core _)
      (le_of_eq (wf_length _ (wf_of_good hg))) (getRandomizers_and_eq hg w)).2.2

/-- Committing without given randomizers is drawing them first. -/
theorem commit_none {p : CoreProver E} (hf : OrFreeP p) (hf' : OrFree (PTree.stmtOf p))
    (hg : Good SolidRep (PTree.stmtOf p)) (w : World) :
    PTree.internalCommit p none w =
      PTree.internalCommit p (some (draws (table w.store (PTree.stmtOf p)) w.rng))
        (after w (PTree.stmtOf p)) := by
  have hcov := draws_cover hg hf' w
  cases hf with
  | leaf p =>
    cases hg with
    | leaf _ hs =>
    simp only [PTree.internalCommit, ProverOps.internalCommit]
    have : DLRepProver.internalCommit p none w =
        DLRepProver.internalCommit p (some (draws (table w.store (.leaf p.stmt)) w.rng))
          (after w (.leaf p.stmt)) := by
      unfold DLRepProver.internalCommit DLRep.updateRandomizers
      have hs : SolidRep p.stmt := hs
      have hcov : ∀ x ∈ p.stmt.secretVars, ∃ v, Dict.get? w.store
          (draws (table w.store (.leaf p.stmt)) w.rng) x = some v := hcov
      rw [pm_bind_eq (update_given (w := after w _) hcov)]
      rw [pm_bind_eq (update_none (getRandomizers_dlrep_eq hs w))]
    show (DLRepProver.internalCommit p none >>= _) w = (DLRepProver.internalCommit p _ >>= _) _
    cases h : DLRepProver.internalCommit p none w with
    | error e =>
      rw [h] at this
      simp only [bind, StateT.bind, h]
      simp only [PTree.stmtOf, ProverOps.stmtOf, ← this]
    | ok r =>
      rw [h] at this
      simp only [bind, StateT.bind, h]
      simp only [PTree.stmtOf, ProverOps.stmtOf, ← this]
  | and s subs hf =>
    simp only [PTree.internalCommit]
    rw [pm_getStore_bind, pm_getStore_bind]
    have hst : (after w (PTree.stmtOf (.and s subs))).store = w.store := rfl
    rw [hst]
    cases hv : Tree.validateComposition w.store (Tree.and s (PTree.stmtOfL subs)) with
    | error e => rfl
    | ok u =>
      rw [pm_liftE_bind, pm_liftE_bind]
      have h1 : Tree.updateRandomizers (Tree.and s (PTree.stmtOfL subs)) none w = _ :=
        getRandomizers_and_eq hg w
      have h2 : Tree.updateRandomizers (Tree.and s (PTree.stmtOfL subs))
          (some (draws (table w.store (PTree.stmtOf (.and s subs))) w.rng))
          (after w (PTree.stmtOf (.and s subs))) =
          .ok (draws (table w.store (PTree.stmtOf (.and s subs))) w.rng,
            after w (PTree.stmtOf (.and s subs))) := by
        unfold Tree.updateRandomizers
        rw [secretVars_core]
        exact update_given (w := after w _) hcov
      rw [pm_bind_eq h1, pm_bind_eq h2]
      rfl

/-- Simulating without given responses is drawing them first. -/
theorem simulate_none {t : Core E} (hf : OrFree t) (hg : Good SolidRep t) (c : Int) (w : World) :
    Tree.simulate t none (some c) w =
      Tree.simulate t (some (draws (table w.store t) w.rng)) (some c) (after w t) := by
  have hcov := draws_cover hg hf w
  cases hf with
  | rep s =>
    cases hg with
    | leaf _ hs =>
    have hcov : ∀ x ∈ s.secretVars, ∃ v, Dict.get? w.store
        (draws (table w.store (.leaf s)) w.rng) x = some v := hcov
    simp only [Tree.simulate, StmtOps.simulate, DLRep.simulate, DLRep.updateRandomizers]
    rw [pm_bind_eq (update_none (getRandomizers_dlrep_eq hs w)),
      pm_bind_eq (update_given (w := after w _) hcov)]
  | all b ts hf =>
    simp only [Tree.simulate, Tree.updateRandomizers, secretVars_core]
    rw [pm_bind_eq (update_none (getRandomizers_and_eq hg w)),
      pm_bind_eq (update_given (w := after w _) hcov)]

/-! ### Heaps with the same identities -/

/-- Two heaps identify the same secrets among `vs`. -/
def SameKeys (σ σs : Store) (vs : List Sec) : Prop :=
  ∀ x ∈ vs, ∀ y ∈ vs, (σs.key x = σs.key y ↔ σ.key x = σ.key y)

theorem dedupGo_same {σ σs : Store} : ∀ (l seen : List Sec),
    (∀ x ∈ l, ∀ y ∈ l ++ seen, (σs.key y = σs.key x ↔ σ.key y = σ.key x)) →
    Tree.dedupGo σs l seen = Tree.dedupGo σ l seen
  | [], _, _ => rfl
  | x :: l, seen, h => by
    have hany : (seen.any fun y => decide (σs.key y = σs.key x)) =
        (seen.any fun y => decide (σ.key y = σ.key x)) := by
      rw [Bool.eq_iff_iff]
      simp only [List.any_eq_true, decide_eq_true_eq]
      constructor
      · rintro ⟨y, hy, e⟩; exact ⟨y, hy, (h x (by simp) y (by simp [hy])).mp e⟩
      · rintro ⟨y, hy, e⟩; exact ⟨y, hy, (h x (by simp) y (by simp [hy])).mpr e⟩
    simp only [Tree.dedupGo, hany]
    rw [dedupGo_same l seen (fun z hz y hy => h z (by simp [hz]) y (by
        simp only [List.cons_append, List.mem_cons]; exact .inr hy)),
      dedupGo_same l (x :: seen) (fun z hz y hy => h z (by simp [hz]) y (by
        simp only [List.mem_append, List.mem_cons, List.cons_append] at hy ⊢; tauto))]

theorem set_same {α : Type} {σ σs : Store} : ∀ (d : Dict α) (s : Sec) (v : α),
    (∀ x ∈ d.map Prod.fst, (σs.key x = σs.key s ↔ σ.key x = σ.key s)) →
    Dict.set σs d s v = Dict.set σ d s v
  | [], _, _, _ => rfl
  | (k, u) :: d, s, v, h => by
    simp only [Dict.set, h k (by simp)]
    rw [set_same d s v fun x hx => h x (by simp only [List.map_cons, List.mem_cons]; exact .inr hx)]

theorem set_keys {α : Type} {σ : Store} : ∀ (d : Dict α) (s : Sec) (v : α),
    ∀ x ∈ (Dict.set σ d s v).map Prod.fst, x = s ∨ x ∈ d.map Prod.fst
  | [], _, _ => by simp [Dict.set]
  | (k, u) :: d, s, v => by
    intro x hx
    simp only [Dict.set] at hx
    split at hx
    · exact .inr hx
    · simp only [List.map_cons, List.mem_cons] at hx ⊢
      rcases hx with rfl | hx
      · exact .inr (.inl rfl)
      · rcases set_keys d s v x hx with h | h
        · exact .inl h
        · exact .inr (.inr h)

theorem orderDict_same {σ σs : Store} {vs : List Sec} (h : SameKeys σ σs vs) (bs : List (Pt E)) :
    Tree.orderDict σs vs bs = Tree.orderDict σ vs bs := by
  unfold Tree.orderDict
  have key : ∀ (z : List (Sec × Pt E)) (d : Dict Nat), (∀ e ∈ z, e.1 ∈ vs) → (∀ x ∈ d.map Prod.fst, x ∈ vs) →
      z.foldl (fun d sg => Dict.set σs d sg.1 sg.2.grp.order) d =
      z.foldl (fun d sg => Dict.set σ d sg.1 sg.2.grp.order) d := by
    intro z
    induction z with
    | nil => intro d _ _; rfl
    | cons e z ih =>
      intro d hz hd
      simp only [List.foldl_cons]
      rw [set_same d e.1 _ fun x hx => h x (hd x hx) e.1 (hz e (by simp))]
      refine ih _ (fun e he => hz e (by simp [he])) fun x hx => ?_
      rcases set_keys d e.1 _ x hx with rfl | hx
      · exact hz e (by simp)
      · exact hd x hx
  exact key _ _ (fun e he => (List.of_mem_zip he).1) (by simp)

theorem table_same {σ σs : Store} {t : Core E} (h : SameKeys σ σs (secrets t)) :
    table σs t = table σ t := by
  cases t with
  | leaf s =>
    simp only [table]
    rw [dedupGo_same]
    intro x hx y hy
    exact h y (by simpa [secrets] using hy) x (by simpa [secrets] using hx)
  | and b ts => exact orderDict_same h _
  | or b ts => exact orderDict_same h _

/-- The keys of the table are secrets of the statement. -/
theorem table_keys {σ : Store} {t : Core E} : ∀ e ∈ table σ t, e.1 ∈ secrets t := by
  have hd : ∀ (l seen : List Sec), ∀ x ∈ Tree.dedupGo σ l seen, x ∈ l := by
    intro l
    induction l with
    | nil => intro seen x hx; simp [Tree.dedupGo] at hx
    | cons y l ih =>
      intro seen x hx
      simp only [Tree.dedupGo] at hx
      split at hx
      · exact List.mem_cons_of_mem _ (ih _ x hx)
      · rcases List.mem_cons.mp hx with rfl | hx
        · simp
        · exact List.mem_cons_of_mem _ (ih _ x hx)
  have ho : ∀ (vs : List Sec) (bs : List (Pt E)), ∀ e ∈ Tree.orderDict σ vs bs, e.1 ∈ vs := by
    intro vs bs
    unfold Tree.orderDict
    have key : ∀ (z : List (Sec × Pt E)) (d : Dict Nat), (∀ e ∈ z, e.1 ∈ vs) →
        (∀ x ∈ d.map Prod.fst, x ∈ vs) → ∀ x ∈ (z.foldl (fun d sg =>
          Dict.set σ d sg.1 sg.2.grp.order) d).map Prod.fst, x ∈ vs := by
      intro z
      induction z with
      | nil => intro d _ h; exact h
      | cons e z ih =>
        intro d hz hd
        refine ih _ (fun e he => hz e (by simp [he])) fun x hx => ?_
        rcases set_keys d e.1 _ x hx with rfl | hx
        · exact hz e (by simp)
        · exact hd x hx
    intro e he
    exact key _ _ (fun e he => (List.of_mem_zip he).1) (by simp) e.1 (List.mem_map.mpr ⟨e, he, rfl⟩)
  intro e he
  cases t with
  | leaf s =>
    simp only [table, List.mem_map] at he
    obtain ⟨x, hx, rfl⟩ := he
    exact hd _ _ x hx
  | and b ts => exact ho _ _ e he
  | or b ts => exact ho _ _ e he

/-- The orders in the table are the ones the statement prescribes. -/
theorem table_orders {σ : Store} {t : Core E} (hg : Good SolidRep t) {q : Key → Nat} (hq : OrdersOK σ q t) :
    ∀ e ∈ table σ t, e.2 = q (σ.key e.1) := by
  have ho : ∀ (z : List (Sec × Pt E)) (d : Dict Nat), (∀ e ∈ z, q (σ.key e.1) = e.2.grp.order) →
      (∀ e ∈ d, e.2 = q (σ.key e.1)) → ∀ e ∈ z.foldl (fun d sg =>
        Dict.set σ d sg.1 sg.2.grp.order) d, e.2 = q (σ.key e.1) := by
    intro z
    induction z with
    | nil => intro d _ h; exact h
    | cons e z ih =>
      intro d hz hd
      refine ih _ (fun e he => hz e (by simp [he])) ?_
      have hv := hz e (by simp)
      have : ∀ (d : Dict Nat), (∀ e ∈ d, e.2 = q (σ.key e.1)) → ∀ f ∈ Dict.set σ d e.1 e.2.grp.order,
          f.2 = q (σ.key f.1) := by
        intro d
        induction d with
        | nil => intro _ f hf; simp [Dict.set] at hf; rw [hf]; exact hv.symm
        | cons g d ihd =>
          intro hd f hf
          simp only [Dict.set] at hf
          split at hf
          · rename_i hk
            rcases List.mem_cons.mp hf with rfl | hf
            · simp only; rw [hk]; exact hv.symm
            · exact hd f (by simp [hf])
          · rcases List.mem_cons.mp hf with rfl | hf
            · exact hd _ (by simp)
            · exact ihd (fun e he => hd e (by simp [he])) f hf
      exact this d hd
  have hz : ∀ (t : Core E), WellFormed t → OrdersOK σ q t → ∀ e ∈ (secrets t).zip (coreBases t),
      q (σ.key e.1) = e.2.grp.order := by
    intro t hw hq e he
    rw [← wf_terms t hw] at he
    exact hq e.1 e.2 he
  have hw := wf_of_good hg
  cases hg with
  | leaf s hs =>
    intro e he
    simp only [table, List.mem_map] at he
    obtain ⟨x, hx, rfl⟩ := he
    have hx' : x ∈ s.secretVars := table_keys (σ := σ) (t := .leaf s) (x, _)
      (by simp only [table, List.mem_map]; exact ⟨x, hx, rfl⟩)
    obtain ⟨b', hb'⟩ := Tree.mem_zip_left hx' (le_of_eq hs.1)
    rw [hq x b' (by simpa [terms] using hb')]
    cases hbs : s.bases with
    | nil => exact (hs.2.1 hbs).elim
    | cons b bs =>
      simp only [List.head?_cons, Option.map_some, Option.getD_some]
      rw [hs.2.2.1 b (by simp [hbs]), hs.2.2.1 b' (List.of_mem_zip hb').2]
  | and b ts hne hg => exact ho _ _ (hz _ hw hq) (by simp)
  | or b ts hne hg => exact ho _ _ (hz _ hw hq) (by simp)

/-- Drawing from two streams that differ by a shift per secret. -/
theorem draws_shift {σ σs : Store} {f : Sec → Int} : ∀ (D : Dict Nat) (r r' : Nat → Nat),
    (∀ (j : Nat) (e : Sec × Nat), D[j]? = some e → ((r' j : Nat) : Int) % (e.2 : Int) = ((r j : Int) + f e.1) % (e.2 : Int)) →
    ∀ x, (∀ e ∈ D, (σs.key e.1 = σs.key x ↔ σ.key e.1 = σ.key x)) →
    ∀ v, Dict.get? σ (draws D r) x = some v → ∃ e ∈ D, σ.key e.1 = σ.key x ∧
      Dict.get? σs (draws D r') x = some ((v + f e.1) % (e.2 : Int))
  | [], r, r', h, x, hx, v, hv => by simp [draws, Dict.get?] at hv
  | (u, o) :: D, r, r', h, x, hx, v, hv => by
    simp only [draws, Dict.get?] at hv ⊢
    have hk := hx (u, o) (by simp)
    simp only at hk
    by_cases hu : σ.key u = σ.key x
    · rw [if_pos hu] at hv
      injection hv with hv
      refine ⟨(u, o), by simp, hu, ?_⟩
      rw [if_pos (hk.mpr hu)]
      have := h 0 (u, o) rfl
      simp only at this ⊢
      rw [← hv]
      push_cast
      rw [this, Int.emod_add_emod]
    · rw [if_neg hu] at hv
      rw [if_neg fun e => hu (hk.mp e)]
      obtain ⟨e, he, h1, h2⟩ := draws_shift D (fun i => r (i + 1)) (fun i => r' (i + 1))
        (fun j e hj => h (j + 1) e (by simpa using hj)) x (fun e he => hx e (by simp [he])) v hv
      exact ⟨e, by simp [he], h1, h2⟩

end Zksk
