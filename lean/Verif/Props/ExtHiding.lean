import Verif.Lemmas.SameDist
import Verif.Lemmas.HideRun
import Verif.Props.Precommit
import Verif.Props.NotEqualComplete
import Verif.Props.BBSComplete

/-! # C62: honest-verifier zero-knowledge with extended parts -/

set_option linter.unusedSectionVars false

namespace Zksk.Props

open Spec

variable {E : Type} [AddCommGroup E] [DecidableEq E]

/-- **C62** The simulator needs nothing a verifier would not have: `simulate(c)` on two objects that agree up to
known values, flags, `precommit()` and traces of earlier runs is the same. -/
theorem C62_simulator_public (env : Env E) (t u : Stmt E) (h : publicPart t = publicPart u) (c : Int) :
    simulatedRunStmt env t c = simulatedRunStmt env u c := simulatedRun_same env h c

/-- **C62** Let `t` be composed by conjunctions of representations and extended statements which are true, such
that the precommitments of the extended ones can be imitated and the statements constructed from them have no
disjunctions.  Then for every challenge the random numbers of the prover can be translated one-to-one into random
numbers of the simulator such that precommitments and transcripts are equal.  The simulator runs on an object `u` of
its own with the same public part, and on a heap that need not contain any value.  Precommitments are compared up
to lists of `None`, which provers replace by `None`. -/
theorem C62_runs_coincide (F : Profile E) (q : Nat) (Z : ExtSpec E → Val E → Prop) (env : Env E) (t u : Stmt E)
    (d : Dict Int) (σ σs : Store) (ht : ∀ s, t ≠ .leaf (.dlrep s)) (hand : AndOnly t)
    (h : Spec.Ready F q (updateSecretValues σ d) d Z t)
    (hl : EveryLeaf (LeafHides F q (updateSecretValues σ d) σs d) t)
    (hn : Named F σ.name t) (hns : Named F σs.name t) (hu : publicPart u = publicPart t) :
    ∃ n, ∀ c : Int, SameOutputs n q (honestRunStmt env t d c) σ
      (do let (v, T) ← simulatedRunStmt env u c; pure (pruned t v, T)) σs := by
  obtain ⟨n, h⟩ := stmt_runs F q Z ht hand h hl hn hns env
  refine ⟨n, fun c => ?_⟩
  rw [C62_simulator_public env u t hu]
  exact h c

/-- **C62** The distributions coincide: every precommitment together with every transcript is produced by the
prover exactly as often as by the simulator. -/
theorem C62_same_distribution (F : Profile E) (q : Nat) (Z : ExtSpec E → Val E → Prop) (env : Env E) (t u : Stmt E)
    (d : Dict Int) (σ σs : Store) (ht : ∀ s, t ≠ .leaf (.dlrep s)) (hand : AndOnly t)
    (h : Spec.Ready F q (updateSecretValues σ d) d Z t)
    (hl : EveryLeaf (LeafHides F q (updateSecretValues σ d) σs d) t)
    (hn : Named F σ.name t) (hns : Named F σs.name t) (hu : publicPart u = publicPart t) :
    ∃ n, ∀ (c : Int) (rest : Nat → Nat) (v : Val E) (T : Transcript E),
      Nat.card {y : Fin n → Fin q // ∃ w, honestRunStmt env t d c ⟨σ, tape y rest⟩ = .ok ((v, T), w)} =
      Nat.card {y : Fin n → Fin q // ∃ v' w, simulatedRunStmt env u c ⟨σs, tape y rest⟩ = .ok ((v', T), w) ∧
        pruned t v' = v} := by
  obtain ⟨n, hsame⟩ := C62_runs_coincide F q Z env t u d σ σs ht hand h hl hn hns hu
  refine ⟨n, fun c rest v T => ?_⟩
  have hcount := (hsame c).count rest (· = (v, T))
  simp only [exists_and_right, exists_eq_right] at hcount
  refine (Nat.card_congr (Equiv.subtypeEquivRight fun y => ?_)).trans
    (hcount.trans (Nat.card_congr (Equiv.subtypeEquivRight fun y => ?_)))
  · exact Iff.rfl
  constructor
  · rintro ⟨w, hw⟩
    obtain ⟨⟨v', T'⟩, w1, h1, h2⟩ := pm_bind.mp hw
    rw [pm_pure_iff] at h2
    simp only [Prod.mk.injEq] at h2
    obtain ⟨⟨h3, rfl⟩, rfl⟩ := h2
    exact ⟨v', w1, h1, h3.symm ▸ rfl⟩
  · rintro ⟨v', w, h1, rfl⟩
    exact ⟨w, by rw [pm_bind_eq h1]; rfl⟩

/-- **C62** Proofs of true inequalities of discrete logarithms, in a cyclic group of prime order: `prove`rs and
`simulate` give the same precommitments and transcripts equally often.  The simulator runs on an object `u` with the
same points and secrets, in a heap that need not contain any value. -/
theorem C62_notequal (env : Env E) (s : NotEqual E) (d : Dict Int) (σ σs : Store) (x δ : Int) (u : Stmt E)
    (hq : s.g.grp.order.Prime) (hgrp : ∀ p ∈ [s.lhs0, s.lhs1, s.h, s.gen], p.grp = s.g.grp)
    (htor : ∀ p ∈ [s.g, s.lhs0, s.h, s.lhs1, s.gen], (s.g.grp.order : Int) • p.val = 0)
    (hpriv : [s.x, s.alpha, s.beta].Nodup) (hx : (updateSecretValues σ d).value s.x = some x)
    (h0 : s.lhs0.val = x • s.g.val) (hne : s.lhs1.val ≠ x • s.h.val)
    (hδ : x • s.h.val - s.lhs1.val = δ • s.gen.val) (hd : d.Uniq (updateSecretValues σ d))
    (hda : ∀ e ∈ d, e.1 ≠ s.alpha ∧ e.1 ≠ s.beta) (hnames : ([s.x, s.alpha, s.beta].map σ.name).Nodup)
    (hnames' : ([s.x, s.alpha, s.beta].map σs.name).Nodup) (hu : publicPart u = publicPart s.stmt) :
    ∃ n, ∀ c : Int, SameOutputs n s.g.grp.order (honestRunStmt env s.stmt d c) σ (simulatedRunStmt env u c) σs := by
  have hp := hpriv
  simp only [List.nodup_cons, List.mem_cons, List.not_mem_nil, or_false, not_or] at hp
  obtain ⟨n, h⟩ := C62_runs_coincide s.profile s.g.grp.order NotEqual.isPoint env s.stmt u d σ σs
    (by intro s'; unfold NotEqual.stmt; simp) (.leaf _)
    (ready_ne s d ⟨σ, fun _ => 0⟩ x hq.ne_zero hgrp (fun p hp => htor p (by simp at hp ⊢; tauto)) hpriv hx h0 hd hda)
    (.leaf _ ⟨⟨1, NotEqual.imitates hq ⟨by rw [hgrp s.lhs1 (by simp), hgrp s.h (by simp)],
        by rw [hgrp s.gen (by simp), hgrp s.h (by simp)]⟩ hp.1 hx hne hδ (htor _ (by simp)) _
        (.inr (.inr rfl))⟩, NotEqual.plain s, NotEqual.leafFor_self ..⟩)
    (named_ne hnames) (named_ne hnames') hu
  refine ⟨n, fun c => ?_⟩
  replace h := h c
  have e : ∀ v, pruned s.stmt v = v := by intro v; cases v <;> simp [NotEqual.stmt, pruned]
  simp only [e] at h
  rw [show (do let x ← simulatedRunStmt env u c; pure (x.1, x.2)) = simulatedRunStmt env u c from bind_pure _] at h
  exact h

/-- **C62** Proofs of BBS+ signatures, when the generators and the signature are multiples of the generator `gen` of
`G1`, of prime order, and the third generator is not zero: provers and `simulate` give the same precommitments and
transcripts equally often.  The simulator has no signature. -/
theorem C62_bbs (P : Pairing E) (env : Env E) (s : BBS E) (sig : Signature E) (ms : List Int) (gen : E)
    (flag : Bool) (d : Dict Int) (σ σs : Store) (a1 a2 α : Int) (g0 g1 g2 : Pt E) (gs : List (Pt E)) (u : Stmt E)
    (hP : s.P = P) (hk : GoodKey P s.pk) (hq : P.order.Prime)
    (htor : ∀ g ∈ s.pk.generators, (P.order : Int) • g.val = 0)
    (hh0 : (P.order : Int) • s.pk.h0.val = 0) (hsig : s.signature = some sig) (hms : ms ≠ [])
    (hfit : ms.length + 2 ≤ s.pk.generators.length) (hvalid : sig.verify P s.pk ms = .ok true)
    (hvals : s.vars.map (updateSecretValues σ d).value = (sig.e :: sig.s :: ms).map some)
    (hnd : [s.r1, s.r2, s.delta1, s.delta2].Nodup)
    (hpriv : ∀ x ∈ [s.r1, s.r2, s.delta1, s.delta2], x ∉ s.vars)
    (hd : d.Uniq (updateSecretValues σ d)) (hda : ∀ e ∈ d, e.1 ∉ [s.r1, s.r2, s.delta1, s.delta2])
    (hnames : ∀ x ∈ [s.r1, s.r2, s.delta1, s.delta2] ++ s.vars, ∀ y ∈ [s.r1, s.r2, s.delta1, s.delta2] ++ s.vars,
      σ.name x = σ.name y → x = y)
    (hnames' : ∀ x ∈ [s.r1, s.r2, s.delta1, s.delta2] ++ s.vars, ∀ y ∈ [s.r1, s.r2, s.delta1, s.delta2] ++ s.vars,
      σs.name x = σs.name y → x = y)
    (hg : s.pk.generators = g0 :: g1 :: g2 :: gs) (htg : (P.order : Int) • gen = 0) (h1 : g1.val = a1 • gen)
    (h2 : g2.val = a2 • gen) (h20 : g2.val ≠ 0) (hA : sig.A = ⟨P.G1, α • gen⟩)
    (hu : publicPart u = publicPart (({ s with signature := none } : BBS E).stmt gen flag)) :
    ∃ n, ∀ c : Int, SameOutputs n P.order (honestRunStmt env (s.stmt gen flag) d c) σ (simulatedRunStmt env u c) σs := by
  have k0 := hk.g1 g0 (by rw [hg]; simp)
  have k1 := hk.g1 g1 (by rw [hg]; simp)
  have k2 := hk.g1 g2 (by rw [hg]; simp)
  have hlen : s.vars.length = ms.length + 2 := by simpa using congrArg List.length hvals
  have hpos := List.length_pos_iff.mpr hms
  have hb : s.bases[0]? = some g0 ∧ s.bases[1]? = some g1 ∧ s.bases[2]? = some g2 := by
    unfold BBS.bases
    rw [hg]
    refine ⟨?_, ?_, ?_⟩ <;> rw [List.getElem?_take_of_lt (by omega)] <;> rfl
  have hord : g0.grp.order = P.order := by rw [k0]; rfl
  have him : Imitates s.profile P.order 2 (updateSecretValues σ d) σs d (s.spec gen) := by
    have := BBS.imitates (s := s) (gen := gen) (σ := updateSecretValues σ d) (σs := σs) (d := d) (a1 := a1)
      (a2 := a2) (α := α) hsig hb ⟨by rw [k0, k1], by rw [k0, k2], by rw [hA, k0]⟩ (by rw [hord]; exact hq)
      (by rw [hord]; exact htg) h1 h2 h20 (by rw [hA]) s.profile
    rwa [hord] at this
  obtain ⟨n, h⟩ := C62_runs_coincide s.profile P.order BBS.isDict env (s.stmt gen flag) u d σ σs
    (by intro s'; unfold BBS.stmt; simp) (.leaf _)
    (ready_bbs P s sig ms gen flag d ⟨σ, fun _ => 0⟩ hP hk hq.ne_zero htor hh0 hsig hms hfit hvalid hvals hnd hpriv hd
      hda)
    (.leaf _ ⟨⟨2, him⟩, BBS.plain hP hk gen, BBS.leafFor hP hk gen gen σs s.signature ..⟩)
    (named_bbs hnames) (named_bbs hnames') (hu.trans rfl)
  refine ⟨n, fun c => ?_⟩
  replace h := h c
  have e : ∀ v, pruned (s.stmt gen flag) v = v := by intro v; cases v <;> simp [BBS.stmt, pruned]
  simp only [e] at h
  rw [show (do let x ← simulatedRunStmt env u c; pure (x.1, x.2)) = simulatedRunStmt env u c from bind_pure _] at h
  exact h

/-- The hypotheses of `C62_notequal` are met by `exNe` with `x = 2`; the simulator knows nothing. -/
example (bind : Bool) : ∃ n, ∀ c : Int, SameOutputs n 7
    (honestRunStmt (Ex.env 5) (exNe bind).stmt [(2, 2)] c) ⟨exNeStore.name, fun _ => none⟩
    (simulatedRunStmt (Ex.env 5) (publicPart (exNe bind).stmt) c) ⟨exNeStore.name, fun _ => none⟩ := by
  refine C62_notequal (Ex.env 5) (exNe bind) [(2, 2)] _ _ 2 1 _ (by decide : Nat.Prime 7) ?_ ?_ ?_ rfl ?_ ?_ ?_
    ⟨rfl, trivial⟩ ?_ ?_ ?_ (publicPart_twice _) <;> cases bind <;> decide

/-- The hypotheses of `C62_bbs` are met. -/
example : ∃ σ1 s, mkBBS exPairing exMsgs [0, 1] exPk (some exSig) false 2 = .ok (σ1, s) ∧
    ∃ n, ∀ c : Int, SameOutputs n 7 (honestRunStmt (Ex.env 5) (s.stmt 1 false) [] c) σ1
      (simulatedRunStmt (Ex.env 5) (({ s with signature := none } : BBS (ZMod 7)).stmt 1 false) c)
      ⟨exMsgs.name, fun _ => none⟩ := by
  obtain ⟨σ1, s, h1, h2, h3, h4, h5, h6, h7, h8⟩ := C44_constructor exPairing exMsgs [0, 1] exPk exSig false 2 [4, 6]
    2 3 [0, 1] rfl (by decide) (by decide) (by decide) (by simp [exPk])
  refine ⟨σ1, s, h1, ?_⟩
  have hname : σ1.name = exMsgs.name := by
    have : mkBBS exPairing exMsgs [0, 1] exPk (some exSig) false 2 = .ok ((exMsgs.setValue 2 exSig.e).setValue 3 exSig.s, _) := rfl
    rw [this] at h1
    cases h1; rfl
  have hinj : ∀ x y, exMsgs.name x = exMsgs.name y → x = y := by
    intro x y h
    have := congrArg String.length h
    simpa [exMsgs] using this
  exact C62_bbs exPairing (Ex.env 5) s exSig [4, 6] 1 false [] σ1 ⟨exMsgs.name, fun _ => none⟩ 3 2 1
    ⟨exPairing.G1, 1⟩ ⟨exPairing.G1, 3⟩ ⟨exPairing.G1, 2⟩ _ _ h2
    (h3 ▸ exKey.good) (by decide : Nat.Prime 7) (by rw [h3]; decide) (by rw [h3]; decide) h4 (by simp)
    (by rw [h3]; decide) (by rw [h3]; decide) h6 h7 h8 (by simp [Dict.Uniq]) (by simp)
    (fun x _ y _ h => hinj x y (hname ▸ h)) (fun x _ y _ h => hinj x y h) (by rw [h3]; rfl) (by decide) (by decide)
    (by decide) (by decide) (by decide) rfl

/-- `2 = x·1` and an inequality for the same `x`, in `ℤ/7ℤ`. -/
def exRepNe : Stmt (ZMod 7) :=
  .and false [.leaf (.dlrep ⟨Ex.P 2, [Ex.P 1], [2], [], false⟩), (exNe true).stmt]

/-- The hypotheses of `C62_runs_coincide` are met by `exRepNe`, which is no single primitive; the value of `x` is
given explicitly. -/
example : ∃ n, ∀ c : Int, SameOutputs n 7
    (honestRunStmt (Ex.env 5) exRepNe [(2, 2)] c) ⟨exNeStore.name, fun _ => none⟩
    (do let (v, T) ← simulatedRunStmt (Ex.env 5) (publicPart exRepNe) c; pure (pruned exRepNe v, T))
    ⟨exNeStore.name, fun _ => none⟩ := by
  have hr := ready_ne (exNe true) [(2, 2)] ⟨⟨exNeStore.name, fun _ => none⟩, fun _ => 0⟩ 2 (by decide) (by decide) (by decide)
    (by decide) rfl (by decide) ⟨rfl, trivial⟩ (by decide)
  have hvars : ∀ y, AtLeaf (leafOccurs (exNe true).profile) exRepNe y → y = 3 ∨ y = 4 ∨ y = 2 := by
    rintro y (_ | ⟨_, _, t, _, ht, h⟩)
    simp only [List.mem_cons, List.not_mem_nil, or_false] at ht
    rcases ht with rfl | rfl
    · obtain ⟨_, _, hy⟩ := h
      simp only [leafOccurs, List.mem_cons, List.not_mem_nil, or_false] at hy
      exact .inr (.inr hy)
    · obtain ⟨_, _, hy⟩ := h
      exact hy
  have hwrites : ∀ y, AtLeaf (leafWrites (exNe true).profile) exRepNe y → y = 3 ∨ y = 4 := by
    rintro y (_ | ⟨_, _, t, _, ht, h⟩)
    simp only [List.mem_cons, List.not_mem_nil, or_false] at ht
    rcases ht with rfl | rfl
    · obtain ⟨_, _, hy⟩ := h
      exact hy.elim
    · obtain ⟨_, _, hy⟩ := h
      exact hy
  have hnamed : Named (exNe true).profile exNeStore.name exRepNe := by
    intro x y hx hy h
    have := congrArg String.length h
    simpa [exNeStore] using this
  refine C62_runs_coincide (exNe true).profile 7 NotEqual.isPoint (Ex.env 5) exRepNe _ _ _ _
    (by intro s; unfold exRepNe; simp) ?_ ?_ ?_ hnamed hnamed (publicPart_twice _)
  · refine .all _ _ fun t ht => ?_
    simp only [List.mem_cons, List.not_mem_nil, or_false] at ht
    rcases ht with rfl | rfl <;> exact .leaf _
  · refine ⟨?_, ?_, ?_, placed_of (fun _ h => h) _, ?_, ?_, ?_, ⟨rfl, trivial⟩, hr.hashable⟩
    · refine .all _ _ (by simp) fun t ht => ?_
      simp only [List.mem_cons, List.not_mem_nil, or_false] at ht
      rcases ht with rfl | rfl
      · refine .leaf _ ⟨?_, ?_, ?_⟩
        · simp [Solid, Ex.P, Ex.G]
        · intro x b hx
          simp only [terms, List.zip_cons_cons, List.zip_nil_right, List.mem_cons, List.not_mem_nil, or_false,
            Prod.mk.injEq] at hx
          obtain ⟨_, rfl⟩ := hx
          decide
        · intro x b hx
          simp only [terms, List.zip_cons_cons, List.zip_nil_right, List.mem_cons, List.not_mem_nil, or_false,
            Prod.mk.injEq] at hx
          obtain ⟨_, rfl⟩ := hx
          rfl
      · exact hr.sound
    · refine .all _ fun t ht => ?_
      simp only [List.mem_cons, List.not_mem_nil, or_false] at ht
      rcases ht with rfl | rfl
      · refine .leaf _ (.rep _ ?_ (.rep _ _ (by simp [Ex.P]) ?_))
        · intro x hx
          simp only [List.mem_cons, List.not_mem_nil, or_false] at hx
          subst hx; rfl
        · decide
      · exact hr.holds
    · refine .all _ _ (by simp) fun t ht => ?_
      simp only [List.mem_cons, List.not_mem_nil, or_false] at ht
      rcases ht with rfl | rfl
      · refine .leaf _ fun x hx hw => ?_
        simp only [leafReads, List.mem_cons, List.not_mem_nil, or_false, List.map_nil] at hx
        subst hx
        rcases hwrites _ hw with h | h <;> exact absurd h (by decide)
      · exact .leaf _ fun x hx hw => hwrites x hw
    · refine .all _ _ ?_ ?_
      · intro t ht
        simp only [List.mem_cons, List.not_mem_nil, or_false] at ht
        rcases ht with rfl | rfl <;> exact .leaf _
      · intro i j t u x hij hi hj ht hu
        match i, j with
        | 0, 0 => exact hij rfl
        | 1, 1 => exact hij rfl
        | 0, 1 => cases hi; obtain ⟨_, _, h⟩ := ht; exact h
        | 1, 0 => cases hj; obtain ⟨_, _, h⟩ := hu; exact h
        | i + 2, _ => simp at hi
        | _, j + 2 => simp at hj
    · refine .all _ _ ?_ ?_
      · intro t ht
        simp only [List.mem_cons, List.not_mem_nil, or_false] at ht
        rcases ht with rfl | rfl <;> exact .leaf _
      · intro u rest h
        generalize hx : (Tree.and false [Tree.leaf (.dlrep ⟨Ex.P 2, [Ex.P 1], [2], [], false⟩), (exNe true).stmt] :
          Stmt (ZMod 7)) = tt at h
        cases h with
        | here => cases hx
        | down b ls t rs u rest h =>
          exfalso
          injection hx with _ hx
          have : t ∈ [Tree.leaf (.dlrep ⟨Ex.P 2, [Ex.P 1], [2], [], false⟩), (exNe true).stmt] := by rw [hx]; simp
          simp only [List.mem_cons, List.not_mem_nil, or_false] at this
          rcases this with rfl | rfl <;> cases h
    · intro e he hw
      simp only [List.mem_cons, List.not_mem_nil, or_false] at he
      subst he
      rcases hwrites _ hw with h | h <;> exact absurd h (by decide)
  · refine .all _ _ (by simp) fun t ht => ?_
    simp only [List.mem_cons, List.not_mem_nil, or_false] at ht
    rcases ht with rfl | rfl
    · exact .leaf _ trivial
    · refine .leaf _ ⟨⟨1, ?_⟩, NotEqual.plain _, NotEqual.leafFor_self ..⟩
      exact NotEqual.imitates (s := exNe true) (x := 2) (δ := 1) (by decide : Nat.Prime 7) ⟨rfl, rfl⟩ (by decide) rfl (by decide)
        (by decide) (by decide) (exNe true).profile (.inr (.inr rfl))

end Zksk.Props
