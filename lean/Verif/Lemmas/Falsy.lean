import Verif.SpecFalsy
import Verif.Lemmas.Said
import Verif.Lemmas.Leak
import Verif.Lemmas.Prim

/-! Disjunctions of extended statements with empty precommitments. -/

set_option linter.unusedSectionVars false

namespace Zksk

open Spec

variable {E : Type} [AddCommGroup E] [DecidableEq E]

theorem falsyLeaf_blank {t t' : Stmt E} (h : Tree.blank t' = Tree.blank t) (ht : FalsyLeaf t) : FalsyLeaf t' := by
  rcases ht with ⟨s, rfl⟩ | ⟨s, rfl, hs⟩ <;> obtain ⟨l', rfl, hb⟩ := Tree.blank_leaf_inv h
  · cases l' with
    | dlrep s' => exact .inl ⟨s', rfl⟩
    | ext s' => simp [Blank.blank] at hb
  · cases l' with
    | dlrep s' => simp [Blank.blank] at hb
    | ext s' =>
      simp only [Blank.blank, Leaf.ext.injEq, Ext.mk.injEq, and_true] at hb
      exact .inr ⟨s', rfl, by rw [hb]; exact hs⟩

theorem setup_falsy {idx : Nat} : ∀ (ts : List (Stmt E)) (index : Nat) (w w' : World) (ts' : List (Stmt E))
    (sims : List (Sim E)), (∀ (j : Nat) t, ts[j]? = some t → index + j ≠ idx → FalsyLeaf t) →
    PTree.setupSimulations idx ts index w = .ok ((ts', sims), w') →
    ∀ s ∈ sims, s.precommitment.truthy = false
  | [], index, w, w', ts', sims, _, h => by
    simp only [PTree.setupSimulations, pm_pure_iff, Prod.mk.injEq] at h
    rw [← h.1.2]; simp
  | t :: ts, index, w, w', ts', sims, ht, h => by
    simp only [PTree.setupSimulations] at h
    split at h
    · obtain ⟨⟨ts1, sims1⟩, w1, h1, h⟩ := pm_bind.mp h
      rw [pm_pure_iff, Prod.mk.injEq, Prod.mk.injEq] at h
      rw [← h.1.2]
      exact setup_falsy ts _ _ _ _ _ (fun j t h hne => ht (j + 1) t h (by omega)) h1
    · rename_i hne0
      obtain ⟨t1, w1, h1, h⟩ := pm_bind.mp h
      obtain ⟨s, w2, h2, h⟩ := pm_bind.mp h
      obtain ⟨⟨ts1, sims1⟩, w3, h3, h⟩ := pm_bind.mp h
      rw [pm_pure_iff, Prod.mk.injEq, Prod.mk.injEq] at h
      rw [← h.1.2]
      refine List.forall_mem_cons.mpr ⟨?_, setup_falsy ts _ _ _ _ _ (fun j t h hne => ht (j + 1) t h (by omega)) h3⟩
      rcases ht 0 t rfl (by omega) with ⟨e, rfl⟩ | ⟨e, rfl, he⟩
      · have h1' : t1 = .leaf (.dlrep e) := by
          simp only [Tree.prepareSim, StmtOps.prepareSim] at h1
          obtain ⟨l1, w4, h1, h4⟩ := pm_bind.mp h1
          obtain ⟨e1, w5, h1, h5⟩ := pm_bind.mp h1
          rw [pm_pure_iff, Prod.mk.injEq] at h1 h4 h5
          rw [← h4.1, ← h5.1, ← h1.1]
        subst h1'
        simp only [Tree.simulate, StmtOps.simulate, DLRep.simulate] at h2
        obtain ⟨_, w4, _, h2⟩ := pm_bind.mp h2
        obtain ⟨_, w5, _, h2⟩ := pm_bind.mp h2
        rw [pm_getStore_bind, pm_liftE_bind_iff] at h2
        obtain ⟨_, _, h2⟩ := h2
        rw [pm_liftE_bind_iff] at h2
        obtain ⟨_, _, h2⟩ := h2
        rw [pm_pure_iff, Prod.mk.injEq] at h2
        rw [← h2.1]; rfl
      simp only [Tree.prepareSim, StmtOps.prepareSim, Ext.prepareSim, Ext.fullConstruct] at h1
      obtain ⟨l1, w4, h1, h4⟩ := pm_bind.mp h1
      obtain ⟨e1, w5, h1, h5⟩ := pm_bind.mp h1
      obtain ⟨v, w6, h6, h1⟩ := pm_bind.mp h1
      rw [pm_getStore_bind, liftE_iff] at h1
      obtain ⟨k, _, h7⟩ := bind_ok_iff.mp h1.1
      injection h7 with h7
      rw [pm_pure_iff, Prod.mk.injEq] at h4 h5
      rw [← h4.1, ← h5.1] at h2
      simp only [Tree.simulate, StmtOps.simulate, Ext.simulate] at h2
      rw [pm_liftE_bind_iff] at h2
      obtain ⟨u, _, h2⟩ := h2
      obtain ⟨tr, w7, _, h2⟩ := pm_bind.mp h2
      rw [pm_pure_iff, Prod.mk.injEq] at h2
      rw [← h2.1]
      simp only
      have : e1.precommitment = v := by
        have e : e1 = _ := h7.symm
        rw [e]
      rw [this]
      exact he.2 _ _ _ h6

theorem orSlots_mem {α : Type} {n idx : Nat} {real : α} {sims vs : List α}
    (h : PTree.orSlots n idx real sims = .ok vs) : ∀ v ∈ vs, v = real ∨ v ∈ sims := by
  unfold PTree.orSlots at h
  suffices hh : ∀ (k index : Nat) (vs : List α), PTree.orSlotsGo idx real sims k index = .ok vs →
      ∀ v ∈ vs, v = real ∨ v ∈ sims from hh _ _ _ h
  intro k
  induction k with
  | zero => intro index vs h; simp only [PTree.orSlotsGo, Except.ok.injEq] at h; rw [← h]; simp
  | succ k ih =>
    intro index vs h
    simp only [PTree.orSlotsGo] at h
    split at h
    · obtain ⟨x, hx, h⟩ := bind_ok_iff.mp h
      obtain ⟨xs, hxs, h⟩ := bind_ok_iff.mp h
      injection h with h
      injection hx with hx
      rw [← h]
      exact List.forall_mem_cons.mpr ⟨.inl hx.symm, ih _ _ hxs⟩
    · split at h
      · rename_i hv
        obtain ⟨x, hx, h⟩ := bind_ok_iff.mp h
        obtain ⟨xs, hxs, h⟩ := bind_ok_iff.mp h
        injection h with h
        injection hx with hx
        subst hx
        rw [← h]
        exact List.forall_mem_cons.mpr ⟨.inr (List.mem_of_getElem? hv), ih _ _ hxs⟩
      · cases h

theorem precommit_falsy {p p' : StmtProver E} (hp : FalsyLeaf (PTree.stmtOf p)) {v : Val E} {w w' : World}
    (h : PTree.precommit p w = .ok ((v, p'), w')) : v.truthy = false := by
  cases p with
  | and _ _ => rcases hp with ⟨s, hs⟩ | ⟨s, hs, hf⟩ <;> cases hs
  | or _ _ _ _ _ => rcases hp with ⟨s, hs⟩ | ⟨s, hs, hf⟩ <;> cases hs
  | leaf p =>
    cases p with
    | dlrep p =>
      simp only [PTree.precommit, ProverOps.precommit] at h
      obtain ⟨⟨v0, p0⟩, w0, h, h0⟩ := pm_bind.mp h
      rw [pm_pure_iff, Prod.mk.injEq, Prod.mk.injEq] at h h0
      rw [← h0.1.1, ← h.1.1]; rfl
    | ext p =>
      obtain ⟨s, hs, hf⟩ := hp.resolve_left (by rintro ⟨s, hs⟩; simp [PTree.stmtOf, ProverOps.stmtOf] at hs)
      simp only [PTree.stmtOf, ProverOps.stmtOf, Tree.leaf.injEq, Leaf.ext.injEq] at hs
      simp only [PTree.precommit, ProverOps.precommit, ExtProver.precommit] at h
      obtain ⟨⟨v0, p0⟩, w0, h, h0⟩ := pm_bind.mp h
      obtain ⟨⟨v1, p1⟩, w1, h, h1⟩ := pm_bind.mp h
      obtain ⟨v2, w2, h2, h⟩ := pm_bind.mp h
      rw [pm_getStore_bind, pm_liftE_bind_iff] at h
      obtain ⟨_, _, h⟩ := h
      rw [pm_liftE_bind_iff] at h
      obtain ⟨_, _, h⟩ := h
      obtain ⟨⟨_, _⟩, w3, _, h⟩ := pm_bind.mp h
      rw [pm_pure_iff, Prod.mk.injEq, Prod.mk.injEq] at h h0 h1
      rw [← h0.1.1]
      simp only at h1 ⊢
      rw [← h1.1.1, ← h.1.1]
      rw [hs] at h2
      exact hf.1 _ _ _ h2

/-- The simulations of a disjunction whose other clauses are single statements with precommitments that count as
false. -/
theorem getProver_or_falsy {b : Bool} {subs : List (Stmt E)} {d : Dict Int} {w w' : World} {t' : Stmt E}
    {b' : Bool} {i : Nat} {stmts : List (Stmt E)} {sub : StmtProver E} {sims : List (Sim E)}
    (h : PTree.getProver (.or b subs) d w = .ok ((some (.or b' i stmts sub sims), t'), w'))
    (hf : ∀ (j : Nat) t, subs[j]? = some t → j ≠ i → FalsyLeaf t) :
    (∀ s ∈ sims, s.precommitment.truthy = false) ∧
      ∃ u, subs[i]? = some u ∧ Tree.blank (PTree.stmtOf sub) = Tree.blank u := by
  simp only [PTree.getProver] at h
  rw [pm_getStore_bind, pm_setStore_bind] at h
  cases b with
  | true =>
    simp only [if_true] at h
    rw [pm_pure_iff, Prod.mk.injEq, Prod.mk.injEq] at h
    cases h.1.1
  | false =>
    simp only [Bool.false_eq_true, if_false] at h
    obtain ⟨⟨r, subs'⟩, w3, h3, h⟩ := pm_bind.mp h
    obtain ⟨k1, k2⟩ := orLoop_keeps (fun t _ => getProver_keeps keepLeaf d t) _ _ _ _ _ _ _ rfl h3
    cases r with
    | none =>
      simp only at h
      rw [pm_pure_iff, Prod.mk.injEq, Prod.mk.injEq] at h
      cases h.1.1
    | some ip =>
      obtain ⟨i', sub'⟩ := ip
      simp only at h
      obtain ⟨⟨stmts', sims'⟩, w4, h4, h⟩ := pm_bind.mp h
      rw [pm_pure_iff, Prod.mk.injEq, Prod.mk.injEq] at h
      have hp := h.1.1
      simp only [Option.some.injEq, PTree.or.injEq] at hp
      obtain ⟨_, rfl, rfl, rfl, rfl⟩ := hp
      refine ⟨setup_falsy subs' 0 _ _ _ _ (fun j u hu hne => ?_) h4, k2 _ _ rfl⟩
      obtain ⟨v, hv, hvb⟩ := blankL_nth k1.symm hu
      exact falsyLeaf_blank hvb.symm (hf j v hv (by omega))

/-- Not everything in `t` is a representation. -/
theorem embed_ne_hasLeaf {t : Stmt E} {e : Ext E} (h : HasLeaf (.ext e) t) : ∀ k : Core E, t ≠ embed k := by
  induction h with
  | leaf => intro k h; exact embed_ext h.symm
  | all b subs t ht _ ih =>
    intro k h
    cases k with
    | leaf _ => cases h
    | or _ _ => cases h
    | and _ ks =>
      simp only [embed, Tree.and.injEq] at h
      obtain ⟨_, rfl⟩ := h
      obtain ⟨k, hk⟩ := mem_embedL ht
      exact ih k hk
  | any b subs t ht _ ih =>
    intro k h
    cases k with
    | leaf _ => cases h
    | and _ _ => cases h
    | or _ ks =>
      simp only [embed, Tree.or.injEq] at h
      obtain ⟨_, rfl⟩ := h
      obtain ⟨k, hk⟩ := mem_embedL ht
      exact ih k hk

theorem stranded_ext {t : Stmt E} (h : Stranded t) : ∃ e : Ext E, HasLeaf (.ext e) t := by
  induction h with
  | flat b subs e he h => exact ⟨e, .any _ _ _ he .leaf⟩
  | plain b subs i u hi hu e he h => exact ⟨e, .any _ _ _ he .leaf⟩
  | part b subs t ht _ ih => obtain ⟨e, he⟩ := ih; exact ⟨e, .all _ _ _ ht he⟩
  | pick b subs i u hi _ h ih => obtain ⟨e, he⟩ := ih; exact ⟨e, .any _ _ _ (List.mem_of_getElem? hi) he⟩

/-- Provers of the parts of a conjunction, and what they say. -/
theorem getProverL_nth {d : Dict Int} : ∀ (ts ts' : List (Stmt E)) (ps : List (Option (StmtProver E)))
    (qs : List (StmtProver E)) (w w' : World), PTree.getProverL ts d w = .ok ((ps, ts'), w') →
    PTree.allSome ps = some qs → ∀ (i : Nat) t, ts[i]? = some t →
      ∃ q t1 w1 w2, qs[i]? = some q ∧ PTree.getProver t d w1 = .ok ((some q, t1), w2)
  | [], ts', ps, qs, w, w', h, hq, i, t, hi => by simp at hi
  | u :: ts, ts', ps, qs, w, w', h, hq, i, t, hi => by
    simp only [PTree.getProverL] at h
    obtain ⟨⟨q?, u1⟩, w2, h2, h⟩ := pm_bind.mp h
    obtain ⟨⟨qs1, us1⟩, w3, h3, h⟩ := pm_bind.mp h
    rw [pm_pure_iff, Prod.mk.injEq, Prod.mk.injEq] at h
    rw [← h.1.1] at hq
    cases q? with
    | none => simp [PTree.allSome] at hq
    | some q =>
      simp only [PTree.allSome, Option.map_eq_some_iff] at hq
      obtain ⟨ps1, hps1, rfl⟩ := hq
      cases i with
      | zero =>
        simp only [List.getElem?_cons_zero, Option.some.injEq] at hi
        subst hi
        exact ⟨q, u1, _, _, rfl, h2⟩
      | succ i => exact getProverL_nth ts _ _ _ _ _ h3 hps1 i t hi

theorem precommitL_nth : ∀ (qs qs' : List (StmtProver E)) (vs : List (Val E)) (w w' : World),
    PTree.precommitL qs w = .ok ((vs, qs'), w') → ∀ (i : Nat) q, qs[i]? = some q →
      ∃ v q' w1 w2, vs[i]? = some v ∧ PTree.precommit q w1 = .ok ((v, q'), w2)
  | [], qs', vs, w, w', h, i, q, hi => by simp at hi
  | p :: qs, qs', vs, w, w', h, i, q, hi => by
    simp only [PTree.precommitL] at h
    obtain ⟨⟨x, q1⟩, w2, h2, h⟩ := pm_bind.mp h
    obtain ⟨⟨xs, qs1⟩, w3, h3, h⟩ := pm_bind.mp h
    rw [pm_pure_iff, Prod.mk.injEq, Prod.mk.injEq] at h
    rw [← h.1.1]
    cases i with
    | zero =>
      simp only [List.getElem?_cons_zero, Option.some.injEq] at hi
      subst hi
      exact ⟨x, q1, _, _, rfl, h2⟩
    | succ i => exact precommitL_nth qs _ _ _ _ h3 i q hi

/-- The verifier cannot use the precommitment of an honest prover. -/
theorem stranded_digested {t : Stmt E} (ht : Stranded t) (d : Dict Int) : ∀ (p : StmtProver E) (t' : Stmt E) (w w' : World),
    PTree.getProver t d w = .ok ((some p, t'), w') → ∀ (v : Val E) (p' : StmtProver E) (w1 w2 : World),
    PTree.precommit p w1 = .ok ((v, p'), w2) → ∀ (σ : Store) (S : Skel E) (k : Core E), ¬ Digested σ t v S k := by
  have bare : ∀ {t : Stmt E} (_ : Stranded t) (σ : Store) (S : Skel E) (k : Core E), ¬ Digested σ t .none S k := by
    intro t ht σ S k h
    obtain ⟨e, he⟩ := stranded_ext ht
    have hne := embed_ne_hasLeaf he
    generalize hv : (Val.none : Val E) = v at h
    cases h with
    | bare k => exact hne k rfl
    | rep s => exact hne (.leaf s) rfl
    | ext s => cases ht
    | all b subs v vi Ss ks hv' => exact hv' hv.symm
    | any b subs v vi Ss ks hv' => exact hv' hv.symm
  have falsy : ∀ {i : Nat} {x : Val E} {sims : List (Sim E)}, x.truthy = false →
      (∀ s ∈ sims, s.precommitment.truthy = false) →
      (if ((sims.map Sim.precommitment).insertIdx i x).any Val.truthy
        then Val.list ((sims.map Sim.precommitment).insertIdx i x) else .none) = .none := by
    intro i x sims hx hs
    rw [if_neg]
    intro ha
    obtain ⟨y, hy, hyt⟩ := List.any_eq_true.mp ha
    rcases List.eq_or_mem_of_mem_insertIdx hy with rfl | hy
    · rw [hx] at hyt; cases hyt
    · obtain ⟨s, hs', rfl⟩ := List.mem_map.mp hy
      rw [hs s hs'] at hyt; cases hyt
  have ht0 := ht
  induction ht with
  | flat b subs e he hf =>
    intro p t' w w' h v p' w1 w2 h1 σ S k
    obtain ⟨i, u, stmts, sub, sims, w3, w4, u', rfl, g1, _, g3, g4, g5, _, _⟩ := getProver_or_parts h
    have hi : i < subs.length := (List.getElem?_eq_some_iff.mp g1).1
    obtain ⟨x, sub', w5, h5, rfl⟩ := precommit_or h1 (by omega) (by omega)
    obtain ⟨hs, u1, hu1, hub⟩ := getProver_or_falsy h fun j t hj _ => hf t (List.mem_of_getElem? hj)
    rw [falsy (precommit_falsy (falsyLeaf_blank hub (hf u1 (List.mem_of_getElem? hu1))) h5) hs]
    exact bare ht0 σ S k
  | plain b subs i0 u0 hi0 hu0 e he hf =>
    intro p t' w w' h v p' w1 w2 h1 σ S k
    obtain ⟨i, u, stmts, sub, sims, w3, w4, u', rfl, g1, g2, g3, g4, g5, _, _⟩ := getProver_or_parts h
    have hi : i < subs.length := (List.getElem?_eq_some_iff.mp g1).1
    obtain rfl : i = i0 := by
      by_contra hne
      have := (hf i u g1 hne).2
      rw [g2] at this; cases this
    obtain rfl : u = u0 := Option.some.inj (g1.symm.trans hi0)
    obtain ⟨x, sub', w5, h5, rfl⟩ := precommit_or h1 (by omega) (by omega)
    obtain ⟨hs, _⟩ := getProver_or_falsy h fun j t hj hne => (hf j t hj hne).1
    rw [precommit_plain d hu0 _ _ _ _ g3 _ _ _ _ h5, falsy rfl hs]
    exact bare ht0 σ S k
  | part b subs t ht hst ih =>
    intro p t' w w' h v p' w1 w2 h1 σ S k hd
    simp only [PTree.getProver] at h
    rw [pm_getStore_bind, pm_setStore_bind] at h
    cases b with
    | true =>
      simp only [if_true] at h
      rw [pm_pure_iff, Prod.mk.injEq, Prod.mk.injEq] at h
      cases h.1.1
    | false =>
      simp only [Bool.false_eq_true, if_false] at h
      obtain ⟨⟨ps, subs'⟩, w3, h3, h⟩ := pm_bind.mp h
      simp only at h
      cases ha : PTree.allSome ps with
      | none => simp only [ha] at h; exact (raise_ne.mp h).elim
      | some qs =>
        simp only [ha] at h
        rw [pm_pure_iff, Prod.mk.injEq, Prod.mk.injEq] at h
        have := h.1.1
        simp only [Option.some.injEq] at this
        subst this
        simp only [PTree.precommit] at h1
        obtain ⟨⟨vs, qs'⟩, w4, h4, h1⟩ := pm_bind.mp h1
        rw [pm_pure_iff, Prod.mk.injEq, Prod.mk.injEq] at h1
        have hv := h1.1.1
        obtain ⟨i, hi⟩ := List.mem_iff_getElem?.mp ht
        have hlt : i < subs.length := (List.getElem?_eq_some_iff.mp hi).1
        obtain ⟨q, t1, w5, w6, m1, m2⟩ := getProverL_nth _ _ _ _ _ _ h3 ha i t hi
        obtain ⟨x, q', w7, w8, m3, m4⟩ := precommitL_nth _ _ _ _ _ h4 i q m1
        simp only [PTree.andPrecommitment] at hv
        split at hv
        · rw [← hv] at hd
          exact bare ht0 σ S k hd
        · rw [← hv] at hd
          generalize hv' : Val.list vs = v' at hd
          generalize hT : Tree.and false subs = T at hd
          cases hd with
          | bare k =>
            obtain ⟨e, he⟩ := stranded_ext ht0
            exact embed_ne_hasLeaf he _ hT
          | rep s => cases hT
          | ext s => cases hT
          | any => cases hT
          | all _ _ _ vi Ss ks hne hS hk hvi hall =>
            cases hT
            subst hv'
            have e1 : vi i = x := by
              have := hvi i hlt
              simp only [Val.index, m3] at this
              exact (Except.ok.inj this).symm
            exact ih hst _ _ _ _ m2 _ _ _ _ m4 σ _ _ (e1 ▸ hall i t _ _ hi (List.getElem?_eq_getElem (by omega))
              (List.getElem?_eq_getElem (by omega)))
  | pick b subs i0 u0 hi0 hu0 hf ih =>
    intro p t' w w' h v p' w1 w2 h1 σ S k hd
    obtain ⟨i, u, stmts, sub, sims, w3, w4, u', rfl, g1, g2, g3, g4, g5, _, _⟩ := getProver_or_parts h
    have hi : i < subs.length := (List.getElem?_eq_some_iff.mp g1).1
    obtain rfl : i = i0 := by
      by_contra hne
      have := hf i u g1 hne
      rw [g2] at this; cases this
    obtain rfl : u = u0 := Option.some.inj (g1.symm.trans hi0)
    obtain ⟨x, sub', w5, h5, rfl⟩ := precommit_or h1 (by omega) (by omega)
    split at hd
    · generalize hv' : Val.list ((sims.map Sim.precommitment).insertIdx i x) = v' at hd
      generalize hT : Tree.or b subs = T at hd
      cases hd with
      | bare k =>
        obtain ⟨e, he⟩ := stranded_ext ht0
        exact embed_ne_hasLeaf he _ hT
      | rep s => cases hT
      | ext s => cases hT
      | all => cases hT
      | any _ _ _ vi Ss ks hne hS hk hvi hall =>
        cases hT
        subst hv'
        have e1 : vi i = x := by
          have := hvi i hi
          simp only [Val.index] at this
          rw [List.getElem?_insertIdx_self, if_pos (by rw [List.length_map]; omega)] at this
          exact (Except.ok.inj this).symm
        exact ih hu0 _ _ _ _ g3 _ _ _ _ h5 σ _ _ (e1 ▸ hall i u _ _ g1 (List.getElem?_eq_getElem (by omega))
          (List.getElem?_eq_getElem (by omega)))
    · exact bare ht0 σ S k hd

/-- The precommitment in a proof comes from the prover. -/
theorem prove_precommitment {env : Env E} {t : Stmt E} {d : Dict Int}
    {msg : String} {w w' : World} {nizk : NIZK E} {t' : Stmt E}
    (h : prove (LeafProver E) env t d msg w = .ok ((nizk, t'), w')) :
    ∃ (p p' : StmtProver E) (t1 : Stmt E) (w1 w2 : World), PTree.getProver t d w = .ok ((some p, t1), w1) ∧
      PTree.precommit p w1 = .ok ((nizk.precommitment, p'), w2) := by
  unfold prove at h
  obtain ⟨⟨p?, t1⟩, w1, h1, h⟩ := pm_bind.mp h
  cases p? with
  | none => exact (raise_ne.mp h).elim
  | some p =>
    simp only at h
    obtain ⟨⟨n, p'⟩, w2, h2, h⟩ := pm_bind.mp h
    rw [pm_pure_iff, Prod.mk.injEq, Prod.mk.injEq] at h
    rw [← h.1.1]
    unfold PTree.getNizkProof at h2
    obtain ⟨⟨v, p1⟩, w5, h5, h2⟩ := pm_bind.mp h2
    obtain ⟨⟨com, p2⟩, w6, _, h2⟩ := pm_bind.mp h2
    simp only at h2
    rw [pm_getStore_bind, pm_liftE_bind_iff] at h2
    obtain ⟨id, _, h2⟩ := h2
    rw [pm_liftE_bind_iff] at h2
    obtain ⟨c, _, h2⟩ := h2
    obtain ⟨r, w7, _, h2⟩ := pm_bind.mp h2
    rw [pm_pure_iff, Prod.mk.injEq, Prod.mk.injEq] at h2
    rw [← h2.1.1]
    exact ⟨p, p1, t1, w1, w5, h1, h5⟩

end Zksk
