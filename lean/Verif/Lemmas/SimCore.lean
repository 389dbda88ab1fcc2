import Verif.SpecPretendStmt
import Verif.Lemmas.Couple
import Verif.Lemmas.TwinSim
import Verif.Lemmas.PublicPart

/-! Simulations of clauses with extended parts, by two people who know the same about them. -/

set_option linter.unusedSectionVars false

namespace Zksk

open Spec

variable {E : Type} [AddCommGroup E] [DecidableEq E]

mutual
theorem publicCore_blank : ∀ t : Core E, publicCore t = Tree.blank t
  | .leaf _ => rfl
  | .and _ subs => by simp only [publicCore, Tree.blank, publicCoreL_blank subs]
  | .or _ subs => by simp only [publicCore, Tree.blank, publicCoreL_blank subs]
theorem publicCoreL_blank : ∀ ts : List (Core E), publicCoreL ts = Tree.blankL ts
  | [] => rfl
  | t :: ts => by simp only [publicCoreL, Tree.blankL, publicCore_blank t, publicCoreL_blank ts]
end

theorem simulate_blank (t : Core E) (d : Option (Dict Int)) (c : Option Int) :
    Tree.simulate (Tree.blank t) d c = Tree.simulate t d c := by
  rw [← publicCore_blank, simulate_public]

/-- Simulating the statement that is left when extended parts are replaced. -/
theorem simulate_stmt_core : ∀ (t : Stmt E) (k : Core E), Tree.core t = some k →
    ∀ (d : Option (Dict Int)) (c : Option Int) (w w' : World) (sim : Sim E),
    Tree.simulate k d c w = .ok (sim, w') →
    Tree.simulate t d c w = .ok ({ sim with precommitment := simPre t }, w') := by
  intro t
  induction t using Tree.ind with
  | leaf l =>
    intro k hk d c w w' sim h
    cases l with
    | dlrep s =>
      simp only [Tree.core, StmtView.core, Option.some.injEq] at hk
      subst hk
      have h' : Tree.simulate (.leaf s : Core E) d c w = .ok (sim, w') := h
      exact simulate_inl (.rep s) (.leaf s) rfl d c w w' sim h'
    | ext s =>
      simp only [Tree.core, StmtView.core, Option.bind_eq_some_iff] at hk
      obtain ⟨u, hu, hk⟩ := hk
      rw [core_blank] at hk
      injection hk with hk
      subst hk
      rw [simulate_blank] at h
      simp only [Tree.simulate, StmtOps.simulate, Ext.simulate, Ext.inner, hu]
      rw [pm_liftE_bind, pm_bind_eq h]
      rfl
  | and b subs ih =>
    intro k hk d c w w' sim h
    have hk0 := hk
    simp only [Tree.core, Option.map_eq_some_iff] at hk
    obtain ⟨ks, hks, rfl⟩ := hk
    simp only [Tree.simulate] at h ⊢
    obtain ⟨d', w1, h1, h⟩ := pm_bind.mp h
    obtain ⟨c', w2, h2, h⟩ := pm_bind.mp h
    obtain ⟨sims, w3, h3, h⟩ := pm_bind.mp h
    rw [pm_pure_iff, Prod.mk.injEq] at h
    obtain ⟨rfl, rfl⟩ := h
    have key : ∀ ts : List (Stmt E), (∀ t ∈ ts, t ∈ subs) → ∀ us, Tree.coreL ts = some us → ∀ (w w' : World) sims,
        Tree.simulateAnd us d' c' w = .ok (sims, w') → ∃ sims', Tree.simulateAnd ts d' c' w = .ok (sims', w') ∧
        sims'.map Sim.commitment = sims.map Sim.commitment ∧ sims'.map Sim.responses = sims.map Sim.responses ∧
        sims'.map Sim.precommitment = simPreL ts := by
      intro ts
      induction ts with
      | nil =>
        intro _ us hus w w' sims h
        cases hus
        simp only [Tree.simulateAnd, pm_pure_iff, Prod.mk.injEq] at h
        obtain ⟨rfl, rfl⟩ := h
        exact ⟨[], rfl, rfl, rfl, rfl⟩
      | cons t ts iht =>
        intro hm us hus w w' sims h
        obtain ⟨u, us', g1, g2, rfl⟩ := Tree.coreL_cons.mp hus
        simp only [Tree.simulateAnd] at h ⊢
        obtain ⟨s1, w1, h1, h⟩ := pm_bind.mp h
        obtain ⟨ss, w2, h2, h⟩ := pm_bind.mp h
        rw [pm_pure_iff, Prod.mk.injEq] at h
        obtain ⟨rfl, rfl⟩ := h
        obtain ⟨ss', i1, i2, i3, i4⟩ := iht (fun t ht => hm t (by simp [ht])) us' g2 _ _ _ h2
        refine ⟨{ s1 with precommitment := simPre t } :: ss', ?_, ?_, ?_, ?_⟩
        · rw [pm_bind_eq (ih t (hm t (by simp)) u g1 _ _ _ _ _ h1), pm_bind_eq i1]
          rfl
        · simp only [List.map_cons, i2]
        · simp only [List.map_cons, i3]
        · simp only [List.map_cons, i4, simPreL]
    obtain ⟨sims', i1, i2, i3, i4⟩ := key subs (fun t ht => ht) ks hks _ _ _ h3
    rw [updateRandomizers_core hk0, pm_bind_eq h1, pm_bind_eq h2, pm_bind_eq i1]
    simp only [pm_pure_iff, i2, i3, i4, simPre]
  | or b subs ih =>
    intro k hk d c w w' sim h
    simp only [Tree.core, Option.map_eq_some_iff] at hk
    obtain ⟨ks, hks, rfl⟩ := hk
    simp only [Tree.simulate] at h ⊢
    obtain ⟨c', w2, h2, h⟩ := pm_bind.mp h
    obtain ⟨sims, w3, h3, h⟩ := pm_bind.mp h
    rw [pm_pure_iff, Prod.mk.injEq] at h
    obtain ⟨rfl, rfl⟩ := h
    have key : ∀ ts : List (Stmt E), (∀ t ∈ ts, t ∈ subs) → ∀ us, Tree.coreL ts = some us → ∀ acc (w w' : World) sims,
        Tree.simulateOr us c' acc w = .ok (sims, w') → ∃ sims', Tree.simulateOr ts c' acc w = .ok (sims', w') ∧
        sims'.map Sim.commitment = sims.map Sim.commitment ∧ sims'.map Sim.responses = sims.map Sim.responses ∧
        sims'.map (fun s => (Val.int s.challenge : Val E)) = sims.map (fun s => Val.int s.challenge) ∧
        sims'.map Sim.precommitment = simPreL ts := by
      intro ts
      induction ts with
      | nil =>
        intro _ us hus acc w w' sims h
        cases hus
        simp only [Tree.simulateOr, pm_pure_iff, Prod.mk.injEq] at h
        obtain ⟨rfl, rfl⟩ := h
        exact ⟨[], rfl, rfl, rfl, rfl, rfl⟩
      | cons t ts iht =>
        intro hm us hus acc w w' sims h
        obtain ⟨u, us', g1, g2, rfl⟩ := Tree.coreL_cons.mp hus
        cases ts with
        | nil =>
          cases g2
          simp only [Tree.simulateOr] at h ⊢
          obtain ⟨s1, w1, h1, h⟩ := pm_bind.mp h
          rw [pm_pure_iff, Prod.mk.injEq] at h
          obtain ⟨rfl, rfl⟩ := h
          refine ⟨[{ s1 with precommitment := simPre t }], ?_, rfl, rfl, rfl, rfl⟩
          rw [pm_bind_eq (ih t (hm t (by simp)) u g1 _ _ _ _ _ h1)]
          rfl
        | cons t2 ts =>
          obtain ⟨u2, us2, g3, g4, rfl⟩ := Tree.coreL_cons.mp g2
          simp only [Tree.simulateOr] at h ⊢
          obtain ⟨s1, w1, h1, h⟩ := pm_bind.mp h
          obtain ⟨ss, w2, h2, h⟩ := pm_bind.mp h
          rw [pm_pure_iff, Prod.mk.injEq] at h
          obtain ⟨rfl, rfl⟩ := h
          obtain ⟨ss', i1, i2, i3, i5, i4⟩ := iht (fun t ht => hm t (List.mem_cons_of_mem _ ht)) _ g2 _ _ _ _ h2
          refine ⟨{ s1 with precommitment := simPre t } :: ss', ?_, ?_, ?_, ?_, ?_⟩
          · rw [pm_bind_eq (ih t (hm t (by simp)) u g1 _ _ _ _ _ h1), pm_bind_eq i1]
            rfl
          · simp only [List.map_cons, i2]
          · simp only [List.map_cons, i3]
          · simp only [List.map_cons, i5]
          · simp only [List.map_cons, i4, simPreL]
    obtain ⟨sims', i1, i2, i3, i5, i4⟩ := key subs (fun t ht => ht) ks hks [] _ _ _ h3
    rw [pm_bind_eq h2, pm_bind_eq i1]
    simp only [pm_pure_iff, i2, i3, i4, i5, simPre]

/-- Results of matched programs may be transformed. -/
theorem Peer.Couple.through {M : Nat} {A B C D : Type} {Q : A → Store → B → Store → Prop}
    {Q' : C → Store → D → Store → Prop} {f : Peer.Run A} {g : Peer.Run B} {φ : A → C} {ψ : B → D}
    (h : Peer.Couple M Q f g) : ∀ {f' : Peer.Run C} {g' : Peer.Run D},
    (∀ r a w, f r = .ok (a, w) → f' r = .ok (φ a, w)) → (∀ r b w, g r = .ok (b, w) → g' r = .ok (ψ b, w)) →
    (∀ a τ b τ', Q a τ b τ' → Q' (φ a) τ (ψ b) τ') → Peer.Couple M Q' f' g' := by
  induction h with
  | ret a τ b τ' h hf hg =>
    intro f' g' h1 h2 h3
    exact .ret _ _ _ _ (h3 _ _ _ _ h) (fun r => h1 _ _ _ (hf r)) fun r => h2 _ _ _ (hg r)
  | block n e _ ih =>
    intro f' g' h1 h2 h3
    exact .block n e fun y => ih y (fun r => h1 _) (fun r => h2 _) h3

namespace Clause

open Peer

variable {M : Nat} {σ σs : Store}

/-- Two prepared statements. -/
structure Prepared (F : Profile E) (t t1 u1 : Stmt E) : Prop where
  same : ∃ k, Tree.core t1 = some k ∧ Tree.core u1 = some k ∧ Good SolidRep k ∧
    ∀ x ∈ secrets k, AtLeaf (leafOccurs F) t x
  skel : Tree.skel u1 = Tree.skel t1
  pre : simPre u1 = simPre t1

theorem public_leaf {l l' : Leaf E} (h : publicLeaf l' = publicLeaf l) :
    (∃ s s', l = .dlrep s ∧ l' = .dlrep s' ∧ s'.norm = s.norm) ∨
    ∃ s s', l = .ext s ∧ l' = .ext s' ∧ s'.spec.cls = s.spec.cls ∧ s'.spec.construct = s.spec.construct ∧
      s'.spec.validate = s.spec.validate ∧ s'.spec.simPrecommit = s.spec.simPrecommit := by
  cases l with
  | dlrep s =>
    cases l' with
    | dlrep s' =>
      simp only [publicLeaf, Leaf.dlrep.injEq] at h
      exact .inl ⟨s, s', rfl, rfl, h⟩
    | ext s' => simp [publicLeaf] at h
  | ext s =>
    cases l' with
    | dlrep s' => simp [publicLeaf] at h
    | ext s' =>
      simp only [publicLeaf, Leaf.ext.injEq, Ext.mk.injEq, ExtSpec.mk.injEq] at h
      obtain ⟨⟨h1, h2, h3, _, h4⟩, _⟩ := h
      exact .inr ⟨s, s', rfl, rfl, h1, h2, h3, h4⟩

theorem prepare_couple (F : Profile E) {q : Nat} {Z : ExtSpec E → Val E → Prop} : ∀ (t u : Stmt E),
    publicPart u = publicPart t → EveryLeaf (LeafSound F q σ Z) t →
    (∀ e : Ext E, HasLeaf (Leaf.ext e) t → ¬ F.outside e.spec) → EveryLeaf (LeafBlind M σ σs) t →
    Couple M (fun t1 τ u1 τ' => (τ = σ ∧ τ' = σs) ∧ Prepared F t t1 u1)
      (starting σ (Tree.prepareSim t)) (starting σs (Tree.prepareSim u)) := by
  intro t
  induction t using Tree.ind with
  | leaf l =>
    intro u hu hs ho hb
    cases u with
    | and _ _ => simp [publicPart] at hu
    | or _ _ => simp [publicPart] at hu
    | leaf l' =>
    simp only [publicPart, Tree.leaf.injEq] at hu
    cases hs with
    | leaf _ hs =>
    cases hb with
    | leaf _ hb =>
    rcases public_leaf hu with ⟨s, s', rfl, rfl, hn⟩ | ⟨s, s', rfl, rfl, c1, c2, c3, c4⟩
    · refine .ends (a := .leaf (.dlrep s)) (b := .leaf (.dlrep s')) ⟨⟨rfl, rfl⟩, ⟨⟨.leaf s.norm, rfl, ?_, ?_, ?_⟩, ?_, rfl⟩⟩
        (fun r => rfl) fun r => rfl
      · simp [Tree.core, StmtView.core, hn]
      · exact good_blank (good_of_solid _ hs.1) _ (blank_blank (.leaf s))
      · intro x hx
        exact .leaf _ _ hx
      · obtain ⟨n1, n2, n3⟩ := norm_fields hn
        simp [Tree.skel, StmtView.skel, n1, n2, n3]
    · obtain ⟨⟨n, hn⟩, hfor⟩ := hb
      have hc : CanSimulate F q σ (Z s.spec) s.spec := hs.1.resolve_left (ho s .leaf)
      refine .reading n (Equiv.refl _) fun y => ?_
      obtain ⟨v, hv⟩ := hn y
      obtain ⟨v', w', k, g1, g2, g3, g4, g5, g6, g7, g8⟩ := hc ⟨σ, tape y fun _ => 0⟩ rfl
      rw [(hv _).1] at g1
      injection g1 with g1
      injection g1 with e1 e2
      subst e1; subst e2
      obtain ⟨k', hk', f1, f2⟩ := hfor.2.2 _ _ _ g3
      have hbk := blank_of_shape _ _ f1 f2
      refine ⟨.leaf (.ext ⟨s.spec, s.simulated, v, some k, s.verifier⟩), σ,
        .leaf (.ext ⟨s'.spec, s'.simulated, v, some k', s'.verifier⟩), σs, ⟨⟨rfl, rfl⟩,
        ⟨⟨Tree.blank k, ?_, ?_, ?_, ?_⟩, ?_, rfl⟩⟩, fun r => ⟨?_, ?_⟩⟩
      · simp [Tree.core, StmtView.core, core_blank]
      · simp [Tree.core, StmtView.core, core_blank, hbk]
      · exact good_blank (good_of_solid _ g5) _ (blank_blank k)
      · intro x hx
        rw [(shape_blank _ _ (blank_blank k)).2] at hx
        exact .leaf _ _ (g7 x hx)
      · simp [Tree.skel, StmtView.skel, skel_core, (shape_blank _ _ hbk).1, c1]
      · simp only [Tree.prepareSim, StmtOps.prepareSim, Ext.prepareSim, bind_assoc]
        rw [pm_bind_eq (hv r).1, pm_getStore_bind]
        simp only [Ext.fullConstruct, g3, bind_ok]
        rfl
      · simp only [Tree.prepareSim, StmtOps.prepareSim, Ext.prepareSim, bind_assoc, c4]
        rw [Equiv.refl_apply, pm_bind_eq (hv r).2, pm_getStore_bind]
        simp only [Ext.fullConstruct, c2, hk', bind_ok]
        rfl
  | and b subs ih =>
    intro u hu hs ho hb
    cases u with
    | leaf _ => simp [publicPart] at hu
    | or _ _ => simp [publicPart] at hu
    | and b' us =>
    simp only [publicPart, Tree.and.injEq, true_and] at hu
    cases hs with
    | all _ _ hne hs =>
    cases hb with
    | all _ _ _ hb =>
    have key := prepareL_couple ih (fun t ht => hs t ht) (fun t ht e he => ho e (.all _ _ t ht he)) hb subs us
      (fun t ht => ht) hu
    simp only [Tree.prepareSim]
    refine .bind key ?_
    rintro ts τ us τ' ⟨⟨rfl, rfl⟩, ⟨ks, k1, k2, k3, k4, k5⟩, k6, k7⟩
    refine .pure ⟨⟨rfl, rfl⟩, ⟨⟨.and false ks, by simp [Tree.core, k1], by simp [Tree.core, k2], ?_, ?_⟩, ?_, ?_⟩⟩
    · refine .and _ _ (fun e => ?_) k3
      subst e
      exact hne (List.length_eq_zero_iff.mp k5.symm)
    · intro x hx
      obtain ⟨t, ht, hx⟩ := k4 x hx
      exact .all _ _ t x ht hx
    · simp only [Tree.skel, k6]
    · simp only [simPre, k7]
  | or b subs ih =>
    intro u hu hs ho hb
    cases u with
    | leaf _ => simp [publicPart] at hu
    | and _ _ => simp [publicPart] at hu
    | or b' us =>
    simp only [publicPart, Tree.or.injEq, true_and] at hu
    cases hs with
    | any _ _ hne hs =>
    cases hb with
    | any _ _ _ hb =>
    have key := prepareL_couple ih (fun t ht => hs t ht) (fun t ht e he => ho e (.any _ _ t ht he)) hb subs us
      (fun t ht => ht) hu
    simp only [Tree.prepareSim]
    refine .bind key ?_
    rintro ts τ us τ' ⟨⟨rfl, rfl⟩, ⟨ks, k1, k2, k3, k4, k5⟩, k6, k7⟩
    refine .pure ⟨⟨rfl, rfl⟩, ⟨⟨.or false ks, by simp [Tree.core, k1], by simp [Tree.core, k2], ?_, ?_⟩, ?_, ?_⟩⟩
    · refine .or _ _ (fun e => ?_) k3
      subst e
      exact hne (List.length_eq_zero_iff.mp k5.symm)
    · intro x hx
      obtain ⟨t, ht, hx⟩ := k4 x hx
      exact .any _ _ t x ht hx
    · simp only [Tree.skel, k6]
    · simp only [simPre, k7]
where
  prepareL_couple {F : Profile E} {q : Nat} {Z : ExtSpec E → Val E → Prop} {subs : List (Stmt E)} {M : Nat}
      {σ σs : Store}
      (ih : ∀ t ∈ subs, ∀ u, publicPart u = publicPart t → EveryLeaf (LeafSound F q σ Z) t →
        (∀ e : Ext E, HasLeaf (Leaf.ext e) t → ¬ F.outside e.spec) → EveryLeaf (LeafBlind M σ σs) t →
        Couple M (fun t1 τ u1 τ' => (τ = σ ∧ τ' = σs) ∧ Prepared F t t1 u1)
          (starting σ (Tree.prepareSim t)) (starting σs (Tree.prepareSim u)))
      (hs : ∀ t ∈ subs, EveryLeaf (LeafSound F q σ Z) t)
      (ho : ∀ t ∈ subs, ∀ e : Ext E, HasLeaf (Leaf.ext e) t → ¬ F.outside e.spec)
      (hb : ∀ t ∈ subs, EveryLeaf (LeafBlind M σ σs) t) : ∀ (ts us : List (Stmt E)), (∀ t ∈ ts, t ∈ subs) →
      publicPartL us = publicPartL ts →
      Couple M (fun ts1 τ us1 τ' => (τ = σ ∧ τ' = σs) ∧ (∃ ks, Tree.coreL ts1 = some ks ∧ Tree.coreL us1 = some ks ∧
          (∀ k ∈ ks, Good SolidRep k) ∧ (∀ x ∈ secretsL ks, ∃ t ∈ ts, AtLeaf (leafOccurs F) t x) ∧
          ks.length = ts.length) ∧ Tree.skelL us1 = Tree.skelL ts1 ∧ simPreL us1 = simPreL ts1)
        (starting σ (Tree.prepareSimL ts)) (starting σs (Tree.prepareSimL us))
    | [], us, _, hu => by
      cases us with
      | cons _ _ => simp [publicPartL] at hu
      | nil => exact .pure ⟨⟨rfl, rfl⟩, ⟨[], rfl, rfl, by simp, by simp [secretsL], rfl⟩, rfl, rfl⟩
    | t :: ts, us, hm, hu => by
      cases us with
      | nil => simp [publicPartL] at hu
      | cons u us =>
      simp only [publicPartL, List.cons.injEq] at hu
      have ht := hm t (by simp)
      simp only [Tree.prepareSimL]
      refine .bind (ih t ht u hu.1 (hs t ht) (ho t ht) (hb t ht)) ?_
      rintro t1 τ u1 τ' ⟨⟨rfl, rfl⟩, ⟨⟨k, a1, a2, a3, a4⟩, a5, a6⟩⟩
      refine .bind (prepareL_couple ih hs ho hb ts us (fun t ht => hm t (by simp [ht])) hu.2) ?_
      rintro ts1 τ us1 τ' ⟨⟨rfl, rfl⟩, ⟨ks, b1, b2, b3, b4, b5⟩, b6, b7⟩
      refine .pure ⟨⟨rfl, rfl⟩, ⟨k :: ks, Tree.coreL_cons.mpr ⟨k, ks, a1, b1, rfl⟩,
        Tree.coreL_cons.mpr ⟨k, ks, a2, b2, rfl⟩, List.forall_mem_cons.mpr ⟨a3, b3⟩, ?_, by simp [b5]⟩, ?_, ?_⟩
      · intro x hx
        simp only [secretsL, List.mem_append] at hx
        rcases hx with hx | hx
        · exact ⟨t, by simp, a4 x hx⟩
        · obtain ⟨t', ht', hx⟩ := b4 x hx
          exact ⟨t', by simp [ht'], hx⟩
      · simp only [Tree.skelL, a5, b6]
      · simp only [simPreL, a6, b7]

/-- Simulating prepared statements. -/
theorem simulate_couple (hM : M ≠ 0) {F : Profile E} {t t1 u1 : Stmt E} (h : Prepared F t t1 u1)
    (hn : ∀ x y, AtLeaf (leafOccurs F) t x → AtLeaf (leafOccurs F) t y → (σs.key x = σs.key y ↔ σ.key x = σ.key y)) :
    Couple M (Equal σ σs) (starting σ (Tree.simulate t1 none none)) (starting σs (Tree.simulate u1 none none)) := by
  obtain ⟨⟨k, h1, h2, h3, h4⟩, _, h5⟩ := h
  have hV : SameKeys σ σs (secrets k) := fun x hx y hy => hn x y (h4 x hx) (h4 y hy)
  have key := (simulate_equal (M := M) hV k h3 (fun x hx => hx) k rfl none none (by simp)).couple hM
  refine key.through (φ := fun s => { s with precommitment := simPre t1 }) (ψ := fun s => { s with precommitment := simPre u1 })
    (fun r a w h => by exact simulate_stmt_core t1 k h1 _ _ _ _ _ h)
    (fun r a w h => by exact simulate_stmt_core u1 k h2 _ _ _ _ _ h) ?_
  rintro a τ b τ' ⟨rfl, e⟩
  exact ⟨by rw [h5], e⟩

/-- The simulations of the other clauses of a disjunction. -/
theorem setup_couple (hM : M ≠ 0) (F : Profile E) {q : Nat} {Z : ExtSpec E → Val E → Prop} (idx : Nat) :
    ∀ (ts us : List (Stmt E)) (index : Nat), us.length = ts.length →
    (∀ (j : Nat) t u, index + j ≠ idx → ts[j]? = some t → us[j]? = some u → publicPart u = publicPart t ∧
      EveryLeaf (LeafSound F q σ Z) t ∧ (∀ e : Ext E, HasLeaf (Leaf.ext e) t → ¬ F.outside e.spec) ∧
      EveryLeaf (LeafBlind M σ σs) t ∧
      ∀ x y, AtLeaf (leafOccurs F) t x → AtLeaf (leafOccurs F) t y → (σs.key x = σs.key y ↔ σ.key x = σ.key y)) →
    Couple M (fun a τ b τ' => (τ = σ ∧ τ' = σs) ∧ a.2 = b.2 ∧ a.1.length = ts.length ∧ b.1.length = ts.length ∧
        (∀ (j : Nat) t u, index + j ≠ idx → a.1[j]? = some t → b.1[j]? = some u →
          Tree.core u = Tree.core t ∧ Tree.skel u = Tree.skel t) ∧
        a.2.length + (if index ≤ idx ∧ idx < index + ts.length then 1 else 0) = ts.length)
      (starting σ (PTree.setupSimulations idx ts index : PM (List (Stmt E) × List (Sim E))))
      (starting σs (PTree.setupSimulations idx us index : PM (List (Stmt E) × List (Sim E))))
  | [], us, index, hl, _ => by
    cases us with
    | cons _ _ => simp at hl
    | nil =>
    refine .pure ⟨⟨rfl, rfl⟩, rfl, rfl, rfl, by simp, ?_⟩
    rw [if_neg (by simp)]; rfl
  | t :: ts, us, index, hl, h => by
    cases us with
    | nil => simp at hl
    | cons u us =>
    have hrec := setup_couple hM F idx ts us (index + 1) (by simpa using hl) fun j t' u' hj ht hu =>
      h (j + 1) t' u' (by omega) ht hu
    simp only [PTree.setupSimulations]
    by_cases hi : index = idx
    · rw [if_pos hi, if_pos hi]
      refine .bind hrec ?_
      rintro ⟨a1, a2⟩ τ ⟨b1, b2⟩ τ' ⟨⟨rfl, rfl⟩, h1, h2, h3, h4, h5⟩
      simp only at h1 h2 h3 h4 h5
      subst h1
      refine .pure ⟨⟨rfl, rfl⟩, rfl, by simp [h2], by simp [h3], ?_, ?_⟩
      · intro j t' u' hj ht hu
        cases j with
        | zero => exact (hj (by omega)).elim
        | succ j => exact h4 j t' u' (by omega) ht hu
      · rw [if_neg (by omega)] at h5
        rw [if_pos (by simp only [List.length_cons]; omega)]
        simp only [List.length_cons]
        omega
    · rw [if_neg hi, if_neg hi]
      obtain ⟨c1, c2, c3, c4, c5⟩ := h 0 t u (by omega) rfl rfl
      refine .bind (prepare_couple F t u c1 c2 c3 c4) ?_
      rintro t1 τ u1 τ' ⟨⟨rfl, rfl⟩, hp⟩
      refine .bind (simulate_couple hM hp c5) ?_
      rintro s1 τ s1' τ' ⟨rfl, rfl, rfl⟩
      refine .bind hrec ?_
      rintro ⟨a1, a2⟩ τ ⟨b1, b2⟩ τ' ⟨⟨rfl, rfl⟩, h1, h2, h3, h4, h5⟩
      simp only at h1 h2 h3 h4 h5
      subst h1
      refine .pure ⟨⟨rfl, rfl⟩, rfl, by simp [h2], by simp [h3], ?_, ?_⟩
      · intro j t' u' hj ht hu
        cases j with
        | zero =>
          simp only [List.getElem?_cons_zero, Option.some.injEq] at ht hu
          subst ht; subst hu
          obtain ⟨⟨k, k1, k2, _⟩, k3, _⟩ := hp
          exact ⟨k2.trans k1.symm, k3⟩
        | succ j => exact h4 j t' u' (by omega) ht hu
      · simp only [List.length_cons]
        by_cases hc : index + 1 ≤ idx ∧ idx < index + 1 + ts.length
        · rw [if_pos hc] at h5; rw [if_pos (by omega)]; omega
        · rw [if_neg hc] at h5; rw [if_neg (by omega)]; omega

end Clause

end Zksk
