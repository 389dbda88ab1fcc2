import Verif.Lemmas.WrongTree
import Verif.Lemmas.Whole
import Verif.Lemmas.NotEqualRun
import Verif.Lemmas.ExtLeaf
import Verif.Lemmas.PowerTwoRun

/-! Proofs of single extended statements by provers whose values may be wrong. -/

set_option linter.unusedSectionVars false

namespace Zksk

open Spec

variable {E : Type} [AddCommGroup E] [DecidableEq E]

/-- The steps of `prove()` for a single extended statement. -/
theorem ext_prove_steps {s : Ext E} {d : Dict Int} {env : Env E} {msg : String} {w w' : World} {nizk : NIZK E}
    {t' : Stmt E} (h : prove (LeafProver E) env (.leaf (.ext s)) d msg w = .ok ((nizk, t'), w')) :
    ∃ (w1 w2 w3 : World) (k k' : Core E) (cp cp' : CoreProver E) (com : Val E) (id : PId E),
      s.spec.precommit { w with store := updateSecretValues w.store d } = .ok (nizk.precommitment, w1) ∧
      s.spec.construct w1.store nizk.precommitment = .ok k ∧
      (PTree.getProver k d : PM (Option (CoreProver E) × Core E)) w1 = .ok ((some cp, k'), w2) ∧
      PTree.internalCommit cp none w2 = .ok ((com, cp'), w3) ∧
      Tree.proofId w3.store (.leaf (.ext { s with precommitment := nizk.precommitment, constructed := some k' }) : Stmt E) =
        .ok id ∧
      env.fiatShamir id nizk.precommitment com msg = .ok nizk.challenge ∧
      PTree.computeResponse cp' nizk.challenge w3 = .ok (nizk.responses, w') := by
  unfold prove at h
  have hg : (PTree.getProver (.leaf (.ext s)) d : PM (Option (StmtProver E) × Stmt E)) w =
      .ok ((some (.leaf (.ext ⟨s, d, none⟩)), .leaf (.ext s)),
        { w with store := updateSecretValues w.store d }) := rfl
  rw [pm_bind_eq hg] at h
  simp only at h
  obtain ⟨⟨n, p'⟩, w1, h1, h⟩ := pm_bind.mp h
  rw [pm_pure_iff, Prod.mk.injEq, Prod.mk.injEq] at h
  simp only at h
  obtain ⟨⟨rfl, rfl⟩, rfl⟩ := h
  unfold PTree.getNizkProof at h1
  obtain ⟨⟨v, p1⟩, w2, h2, h1⟩ := pm_bind.mp h1
  obtain ⟨⟨com, p2⟩, w3, h3, h1⟩ := pm_bind.mp h1
  simp only at h1
  rw [pm_getStore_bind, pm_liftE_bind_iff] at h1
  obtain ⟨id, hid, h1⟩ := h1
  rw [pm_liftE_bind_iff] at h1
  obtain ⟨c, hc, h1⟩ := h1
  obtain ⟨r, w4, hr, h1⟩ := pm_bind.mp h1
  rw [pm_pure_iff, Prod.mk.injEq, Prod.mk.injEq] at h1
  obtain ⟨⟨rfl, rfl⟩, rfl⟩ := h1
  simp only [PTree.precommit] at h2
  obtain ⟨⟨v', lp⟩, w5, h4, h2⟩ := pm_bind.mp h2
  rw [pm_pure_iff, Prod.mk.injEq, Prod.mk.injEq] at h2
  simp only at h2
  obtain ⟨⟨rfl, rfl⟩, rfl⟩ := h2
  simp only [ProverOps.precommit] at h4
  obtain ⟨⟨v2, ep⟩, w6, h5, h4⟩ := pm_bind.mp h4
  rw [pm_pure_iff, Prod.mk.injEq, Prod.mk.injEq] at h4
  simp only at h4
  obtain ⟨⟨rfl, rfl⟩, rfl⟩ := h4
  unfold ExtProver.precommit at h5
  obtain ⟨v3, w7, h6, h5⟩ := pm_bind.mp h5
  rw [pm_getStore_bind, pm_liftE_bind_iff] at h5
  obtain ⟨s1, h7, h5⟩ := h5
  rw [pm_liftE_bind_iff] at h5
  obtain ⟨t1, ht1, h5⟩ := h5
  obtain ⟨⟨cp, t2⟩, w8, hgp, h5⟩ := pm_bind.mp h5
  rw [pm_pure_iff, Prod.mk.injEq, Prod.mk.injEq] at h5
  simp only at h5
  obtain ⟨⟨rfl, rfl⟩, rfl⟩ := h5
  unfold Ext.fullConstruct at h7
  obtain ⟨t3, hk, h7⟩ := bind_ok_iff.mp h7
  cases h7
  simp only [Ext.inner, Except.ok.injEq] at ht1
  subst ht1
  simp only [PTree.internalCommit] at h3
  obtain ⟨⟨v4, lp⟩, w9, h8, h3⟩ := pm_bind.mp h3
  rw [pm_pure_iff, Prod.mk.injEq, Prod.mk.injEq] at h3
  simp only at h3
  obtain ⟨⟨rfl, rfl⟩, rfl⟩ := h3
  simp only [ProverOps.internalCommit] at h8
  obtain ⟨⟨v5, ep⟩, w10, h9, h8⟩ := pm_bind.mp h8
  rw [pm_pure_iff, Prod.mk.injEq, Prod.mk.injEq] at h8
  simp only at h8
  obtain ⟨⟨rfl, rfl⟩, rfl⟩ := h8
  unfold ExtProver.internalCommit at h9
  simp only at h9
  cases cp with
  | none => exact (raise_ne.mp h9).elim
  | some cp =>
    simp only at h9
    obtain ⟨⟨v6, cp'⟩, w11, hcm, h9⟩ := pm_bind.mp h9
    rw [pm_pure_iff, Prod.mk.injEq, Prod.mk.injEq] at h9
    simp only at h9
    obtain ⟨⟨rfl, rfl⟩, rfl⟩ := h9
    exact ⟨w7, w8, w11, t3, t2, cp, cp', v6, id, h6, hk, hgp, hcm, hid, hc, hr⟩

/-- The steps of `verify()` for a single extended statement. -/
theorem ext_verify_steps {s : Ext E} {env : Env E} {msg : String} {σ : Store} {nizk : NIZK E}
    (h : verify env σ (.leaf (.ext s) : Stmt E) nizk msg = .ok true) (hn : nizk.precommitment ≠ .none) :
    ∃ (k : Core E) (com : Val E) (id : PId E), s.spec.construct σ nizk.precommitment = .ok k ∧
      s.spec.validate nizk.precommitment = .ok () ∧ Tree.recompute k nizk.challenge nizk.responses = .ok com ∧
      Tree.proofId σ (.leaf (.ext { s with precommitment := nizk.precommitment, constructed := some k }) : Stmt E) =
        .ok id ∧
      env.fiatShamir id nizk.precommitment com msg = .ok nizk.challenge := by
  unfold verify at h
  obtain ⟨tv, g1, hv1⟩ := bind_ok_iff.mp h
  obtain ⟨id, g2, hv2⟩ := bind_ok_iff.mp hv1
  obtain ⟨_, g3, hv3⟩ := bind_ok_iff.mp hv2
  obtain ⟨cv, g4, hv4⟩ := bind_ok_iff.mp hv3
  obtain ⟨c', g5, hv5⟩ := bind_ok_iff.mp hv4
  clear h hv1 hv2 hv3 hv4
  simp only [Except.ok.injEq, decide_eq_true_eq] at hv5
  subst hv5
  unfold digestPrecommitment at g1
  have hnn : nizk.precommitment.isNone = false := by
    cases hp : nizk.precommitment <;> simp_all [Val.isNone]
  rw [hnn] at g1
  simp only [Bool.false_eq_true, if_false, Tree.freshVerifier, Tree.process, StmtOps.freshVerifier,
    StmtOps.process, Ext.process, Ext.fullConstruct] at g1
  cases hk : s.spec.construct σ nizk.precommitment with
  | error e => simp [hk, bind, Except.bind, Except.map, Functor.map] at g1
  | ok k =>
    simp only [hk, bind, Except.bind, Except.map, Functor.map, Except.ok.injEq, Option.map] at g1
    subst g1
    refine ⟨k, cv, id, rfl, ?_, g4, ?_, g5⟩
    · unfold preVerification at g3
      obtain ⟨_, g6, _⟩ := bind_ok_iff.mp g3
      exact g6
    · unfold checkStatement at g2
      obtain ⟨id1, k1, k2⟩ := bind_ok_iff.mp g2
      split at k2
      · cases k2
      · injection k2 with k2
        subst k2
        exact k1

/-- An accepted proof of a single extended statement: whatever values the prover used for the constructed statement,
the challenges annihilate what they miss, or two different commitments have one challenge. -/
theorem ext_wrong {s sv : Ext E} {d : Dict Int} {env : Env E} {msg : String} {w w' : World} {nizk : NIZK E}
    {t' : Stmt E} {σv : Store}
    (h : prove (LeafProver E) env (.leaf (.ext s)) d msg w = .ok ((nizk, t'), w'))
    (hn : nizk.precommitment ≠ .none) (hf : LeafFor σv (.ext sv) (.ext s))
    (hv : verify env σv (.leaf (.ext sv) : Stmt E) nizk msg = .ok true) :
    s.spec.validate nizk.precommitment = .ok () ∧
    ∃ (w1 w2 : World) (k k' : Core E) (cp : CoreProver E),
      s.spec.precommit { w with store := updateSecretValues w.store d } = .ok (nizk.precommitment, w1) ∧
      s.spec.construct w1.store nizk.precommitment = .ok k ∧
      (PTree.getProver k d : PM (Option (CoreProver E) × Core E)) w1 = .ok ((some cp, k'), w2) ∧
      ∀ X : Key → Int, WellFormed k → Torsion k → w2.store.name = σv.name →
        (∀ q ∈ active cp, (∀ x ∈ q.stmt.secretVars,
          Dict.get? w2.store q.secretValues x = some (X (w2.store.key x))) ∧
          ∀ b ∈ q.stmt.bases, b.grp = q.stmt.lhs.grp) →
        (∀ a ∈ queried cp nizk.challenge, a.2 • miss w2.store a.1.stmt X = 0) ∨
        ∃ id com com', com ≠ com' ∧
          env.fiatShamir id nizk.precommitment com msg = .ok nizk.challenge ∧
          env.fiatShamir id nizk.precommitment com' msg = .ok nizk.challenge := by
  obtain ⟨w1, w2, w3, k, k', cp, cp', com, id, h1, h2, h3, h4, h5, h6, h7⟩ := ext_prove_steps h
  obtain ⟨f1, f2, f3⟩ := hf
  obtain ⟨kv, comv, idv, g1, g2, g3, g4, g5⟩ := ext_verify_steps hv hn
  refine ⟨by rw [← f2]; exact g2, w1, w2, k, k', cp, h1, h2, h3, fun X hw ht hname hX => ?_⟩
  obtain ⟨kv', i1, i2, i3⟩ := f3 _ _ _ h2
  rw [g1] at i1
  cases i1
  obtain ⟨v, hpre⟩ := whole_precommit cp (getProver_whole d k _ _ _ _ h3).1 w2
  obtain ⟨e1, e2, e3⟩ := wrong_run hw ht h3 X hX hpre h4
  obtain ⟨r, w5, com', j1, j2, _, j3, j4⟩ := e3 nizk.challenge w3 e1
  rw [h7] at j1
  cases j1
  have hcv : comv = com' := by
    rw [recompute_skel kv k _ _ i2, j3] at g3
    exact (Except.ok.inj g3).symm
  subst hcv
  by_cases heq : comv = com
  · exact .inl (j4.mp heq)
  · refine .inr ⟨id, com, comv, fun h => heq h.symm, h6, ?_⟩
    have hk' : shape k' = shape k ∧ secrets k' = secrets k := by
      have := (getProver_core hw ht h3 X).2.2
      rw [(getProver_whole d k _ _ _ _ h3).2] at this
      exact shape_blank _ _ this
    have hid : idv = id := by
      have hS : Tree.skel (.leaf (.ext { s with precommitment := nizk.precommitment, constructed := some k' }) : Stmt E) =
          some (.ext s.spec.cls nizk.precommitment (shape k)) := by
        rw [← hk'.1]; simp [Tree.skel, StmtView.skel, skel_core]
      have hSv : Tree.skel (.leaf (.ext { sv with precommitment := nizk.precommitment, constructed := some kv }) : Stmt E) =
          some (.ext s.spec.cls nizk.precommitment (shape k)) := by
        rw [← i2, ← f1]; simp [Tree.skel, StmtView.skel, skel_core]
      have hV : Tree.secretVars (.leaf (.ext { s with precommitment := nizk.precommitment, constructed := some k' }) : Stmt E) =
          .ok (secrets k) := by
        rw [← hk'.2]; exact secretVars_core k'
      have hVv : Tree.secretVars (.leaf (.ext { sv with precommitment := nizk.precommitment, constructed := some kv }) : Stmt E) =
          .ok (secrets k) := by
        rw [← i3]; exact secretVars_core kv
      rw [proofId_iff hS hV, e1, hname, ← proofId_iff hSv hVv, g4] at h5
      exact Except.ok.inj h5
    rw [← hid]; exact g5

/-- The same for extended statements that construct conjunctions of representations of the values in the heap. -/
theorem ext_wrong_free {s sv : Ext E} {d : Dict Int} {env : Env E} {msg : String} {w w' : World} {nizk : NIZK E}
    {t' : Stmt E} {σv : Store}
    (h : prove (LeafProver E) env (.leaf (.ext s)) d msg w = .ok ((nizk, t'), w'))
    (hn : nizk.precommitment ≠ .none) (hf : LeafFor σv (.ext sv) (.ext s))
    (hv : verify env σv (.leaf (.ext sv) : Stmt E) nizk msg = .ok true)
    (hd : d.Uniq (updateSecretValues w.store d)) :
    s.spec.validate nizk.precommitment = .ok () ∧
    ∃ (w1 : World) (k : Core E),
      s.spec.precommit { w with store := updateSecretValues w.store d } = .ok (nizk.precommitment, w1) ∧
      s.spec.construct w1.store nizk.precommitment = .ok k ∧
      (WellFormed k → Torsion k → OrFree k → w1.store.name = σv.name →
        (∀ y ∈ d.map Prod.fst, w1.store.key y = (updateSecretValues w.store d).key y) →
        (∀ r ∈ reps k, r.secretValues = knownValues w1.store r.secretVars [] ∧
          (∀ x ∈ r.secretVars, (w1.store.value x).isSome) ∧ ∀ b ∈ r.bases, b.grp = r.lhs.grp) →
        (∀ r ∈ reps k, nizk.challenge • miss w1.store r valueOf = 0) ∨
        ∃ id com com', com ≠ com' ∧
          env.fiatShamir id nizk.precommitment com msg = .ok nizk.challenge ∧
          env.fiatShamir id nizk.precommitment com' msg = .ok nizk.challenge) := by
  obtain ⟨h0, w1, w2, k, k', cp, h1, h2, h3, h4⟩ := ext_wrong h hn hf hv
  refine ⟨h0, w1, k, h1, h2, fun hw ht hfree hname hsame hreps => ?_⟩
  have htold : Told w1.store d := told_same (told_of_uniq hd) hsame
  have hup : updateSecretValues w1.store d = w1.store := fixed_same (updateSecretValues_idem _ _) hsame
  have hheap : heapFor w1.store d k = w1.store := by
    cases k with
    | leaf r => rfl
    | and b ts => rw [heapFor_eq w1.store d (t := Tree.and b ts) (by simp), hup]
    | or b ts => rw [heapFor_eq w1.store d (t := Tree.or b ts) (by simp), hup]
  have huniq : d.Uniq w1.store := uniq_same (S := fun y => y ∈ d.map Prod.fst) (fun y hy => hsame y hy)
    (fun e he => List.mem_map_of_mem he) hd
  obtain ⟨e1, e2, e3⟩ := free_data hfree (by rw [hheap]; exact huniq) valueOf (fun r hr => ⟨fun x hx => by
    obtain ⟨g1, g2, _⟩ := hreps r hr
    obtain ⟨n, hn⟩ := Option.isSome_iff_exists.mp (g2 x hx)
    rw [hheap, given_known htold g1 hx hn]
    simp [valueOf, Store.key, hn], (hreps r hr).2.2⟩) h3
  rw [hheap] at e1
  rcases h4 valueOf hw ht (by rw [e1]; exact hname) e2 with h5 | h5
  · left
    rw [e3, e1] at h5
    exact h5
  · exact .inr h5

/-- An accepted proof of a conjunction of a leaf and two extended statements has precommitments that both accept. -/
theorem verify_two_ext {b : Bool} {l : Leaf E} {e1 e2 : Ext E} {env : Env E} {msg : String} {σ : Store}
    {nizk : NIZK E} {v0 v1 v2 : Val E}
    (h : verify env σ (.and b [.leaf l, .leaf (.ext e1), .leaf (.ext e2)] : Stmt E) nizk msg = .ok true)
    (hn : nizk.precommitment = .list [v0, v1, v2]) :
    e1.spec.validate v1 = .ok () ∧ e2.spec.validate v2 = .ok () := by
  unfold verify at h
  obtain ⟨tv, g1, hv1⟩ := bind_ok_iff.mp h
  obtain ⟨id, g2, hv2⟩ := bind_ok_iff.mp hv1
  obtain ⟨_, g3, _⟩ := bind_ok_iff.mp hv2
  unfold digestPrecommitment at g1
  rw [hn] at g1
  simp only [Val.isNone, Bool.false_eq_true, if_false, Tree.freshVerifier, Tree.freshVerifierL, Tree.process,
    Tree.processL, StmtOps.freshVerifier] at g1
  obtain ⟨ts, g4, g5⟩ := bind_ok_iff.mp g1
  injection g5 with g5
  subst g5
  obtain ⟨u0, i0, a0⟩ := bind_ok_iff.mp g4
  obtain ⟨t0, _, b0⟩ := bind_ok_iff.mp a0
  obtain ⟨ts1, c0, j0⟩ := bind_ok_iff.mp b0
  obtain ⟨u1, i1, a1⟩ := bind_ok_iff.mp c0
  obtain ⟨t1, k1, b1⟩ := bind_ok_iff.mp a1
  obtain ⟨ts2, c1, j1⟩ := bind_ok_iff.mp b1
  obtain ⟨u2, i2, a2⟩ := bind_ok_iff.mp c1
  obtain ⟨t2, k2, b2⟩ := bind_ok_iff.mp a2
  obtain ⟨ts3, c2, j2⟩ := bind_ok_iff.mp b2
  clear g4 a0 b0 c0 a1 b1 c1 a2 b2
  injection c2 with c2
  injection j2 with j2
  injection j1 with j1
  injection j0 with j0
  subst c2 j2 j1 j0
  obtain rfl : v1 = u1 := Except.ok.inj i1
  obtain rfl : v2 = u2 := Except.ok.inj i2
  have key : ∀ {e : Ext E} {v : Val E} {t : Stmt E}, (do
      let l' ← StmtOps.process σ (Leaf.ext { e with verifier := none }) v
      (Except.ok (.leaf l') : Except Err (Stmt E))) = .ok t → Tree.fullValidate t = .ok () →
      e.spec.validate v = .ok () := by
    intro e v t hk hval
    simp only [StmtOps.process, Ext.process, Ext.fullConstruct] at hk
    cases hc : e.spec.construct σ v with
    | error x => simp [hc, bind, Except.bind, Except.map, Functor.map] at hk
    | ok k =>
      simp only [hc, bind, Except.bind, Except.map, Functor.map, Except.ok.injEq, Option.map] at hk
      subst hk
      exact hval
  unfold preVerification at g3
  obtain ⟨_, g6, _⟩ := bind_ok_iff.mp g3
  simp only [Tree.fullValidate, Tree.fullValidateL] at g6
  obtain ⟨_, _, g6⟩ := bind_ok_iff.mp g6
  obtain ⟨_, m1, g6⟩ := bind_ok_iff.mp g6
  obtain ⟨_, m2, _⟩ := bind_ok_iff.mp g6
  exact ⟨key k1 m1, key k2 m2⟩

/-- Precommitments of range proofs whose values do not open the commitment are not valid. -/
theorem PowerTwo.precommit_wrong {s : PowerTwo E} (hp : s.isProver = true) (hh : s.h.grp = s.g.grp)
    (hord : s.g.grp.order ≠ 0) (htor : (s.g.grp.order : Int) • s.h.val = 0) (hnd : s.rands.Nodup)
    (hr : s.r ∉ s.rands) {w w' : World} {x r : Int} {v : Val E} (hx : w.store.value s.x = some x)
    (hrv : w.store.value s.r = some r) (h : s.precommit w = .ok (v, w'))
    (hwrong : s.com.val ≠ x • s.g.val + r • s.h.val) : v ≠ .none ∧ s.validate v ≠ .ok () := by
  have hx01 : 0 ≤ x ∧ x < 2 ^ s.numBits := by
    by_contra hno
    rw [PowerTwo.precommit_error hp hx (by by_contra hc; push Not at hc; exact hno hc)] at h
    cases h
  obtain ⟨bs, vs, w1, h1, h2, h3, h4, h5⟩ := precommit_of hp hh hord hnd hr hx hx01.1 hx01.2 hrv
  rw [h5] at h
  injection h with h
  rw [Prod.mk.injEq] at h
  obtain ⟨rfl, rfl⟩ := h
  refine ⟨by simp [message], fun hv => hwrong ?_⟩
  obtain ⟨rand, l, ps, g1, g2, g3, _, _, _, g4⟩ := (s.validate_iff _).mp hv
  obtain ⟨l1, l2, l3⟩ := decompose_ok h1
  have hvl : vs.length = s.rands.length := by have := congrArg List.length h2; simpa using this.symm
  have e1 : rand = (sumRands s.order 0 1 vs - r) % (s.order : Int) := by
    have : (Except.ok (.int ((sumRands s.order 0 1 vs - r) % (s.order : Int))) : Except Err (Val E)) = .ok (.int rand) := g1
    cases this; rfl
  have e2 : l = .list ((List.zipWith (fun b v => (⟨s.g.grp, b • s.g.val + v • s.h.val⟩ : Pt E)) bs vs).map .pt) := by
    have : (Except.ok (.list ((List.zipWith (fun b v => (⟨s.g.grp, b • s.g.val + v • s.h.val⟩ : Pt E)) bs vs).map .pt)) :
      Except Err (Val E)) = .ok l := g2
    injection this with this
    exact this.symm
  subst e1 e2
  have e3 : ps = List.zipWith (fun b v => (⟨s.g.grp, b • s.g.val + v • s.h.val⟩ : Pt E)) bs vs := by
    simp only [Val.elems, Except.ok.injEq] at g3
    exact ((List.map_injective_iff.mpr (fun a b h => by injection h)) g3).symm
  subst e3
  have hmap : (List.zipWith (fun b v => (⟨s.g.grp, b • s.g.val + v • s.h.val⟩ : Pt E)) bs vs).map Pt.val =
      List.zipWith (fun b v => b • s.g.val + v • s.h.val) bs vs := by
    rw [List.map_zipWith]
  rw [hmap, hornerE_zip _ _ _ _ (by rw [l1, hvl]; rfl), l3] at g4
  have : ((sumRands s.order 0 1 vs - r) % (s.order : Int)) • s.h.val = (horner vs - r) • s.h.val := by
    refine smul_eq_of_dvd htor ?_
    have hd := sumRands_mod s.order vs 0 1
    rw [zero_add, one_mul] at hd
    have h2 : (s.order : Int) ∣ (sumRands s.order 0 1 vs - r) % (s.order : Int) - (sumRands s.order 0 1 vs - r) :=
      ⟨-((sumRands s.order 0 1 vs - r) / (s.order : Int)), by
        have := Int.emod_add_mul_ediv (sumRands s.order 0 1 vs - r) (s.order : Int); linarith⟩
    have h3 := dvd_add h2 hd
    have e : (sumRands s.order 0 1 vs - r) % (s.order : Int) - (sumRands s.order 0 1 vs - r) +
        (sumRands s.order 0 1 vs - horner vs) = (sumRands s.order 0 1 vs - r) % (s.order : Int) -
        (horner vs - r) := by ring
    rw [e] at h3
    exact h3
  rw [this, sub_smul] at g4
  have e5 : s.com.val = (x • s.g.val + horner vs • s.h.val) - (horner vs • s.h.val - r • s.h.val) := by
    rw [g4]; abel
  rw [e5]; abel

end Zksk
