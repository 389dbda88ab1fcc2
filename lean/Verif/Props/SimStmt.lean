import Verif.Props.ExtComplete
import Verif.Lemmas.StmtRun
import Verif.Lemmas.Fork
import Verif.Props.NotEqualComplete
import Verif.Props.RangeComplete
import Verif.Props.BBSComplete

/-! # C64: simulated transcripts of statements with extended parts; what passes the consistency check -/

set_option linter.unusedSectionVars false

namespace Zksk.Props

open Spec

variable {E : Type} [AddCommGroup E] [DecidableEq E]

/-- **C64** What `verify_simulation_consistency` says, for every statement and every transcript: it returns a
verdict exactly if the precommitment can be digested, the hash in the transcript is that of the resulting
statement, responses to the same secret agree and the commitment can be recomputed from the challenge and the
responses; it returns `True` exactly if this is the commitment of the transcript. -/
theorem C64_criterion (env : Env E) (σ : Store) (t : Stmt E) (tr : Sim E) (h : List UInt8) (b : Bool) :
    verifySimulationConsistency env σ t tr h = .ok b ↔
    ∃ S k id com ρ, Digested σ t tr.precommitment S k ∧ IsId S ((secrets k).map σ.name) id ∧
      h = env.digest id ∧ Agree σ k tr.responses ρ ∧ Eqns k tr.challenge tr.responses com ∧
      b = decide (tr.commitment = com) := by
  unfold verifySimulationConsistency verifyResponse
  constructor
  · intro hs
    obtain ⟨t1, ht1, hs⟩ := bind_ok_iff.mp hs
    obtain ⟨id, hid, hs⟩ := bind_ok_iff.mp hs
    obtain ⟨_, hpre, hs⟩ := bind_ok_iff.mp hs
    obtain ⟨com, hcom, hs⟩ := bind_ok_iff.mp hs
    have hfin := Except.ok.inj hs
    unfold checkStatement at hid
    obtain ⟨id', hid', hid⟩ := bind_ok_iff.mp hid
    split at hid
    · cases hid
    · rename_i hh
      injection hid with hid; subst hid
      unfold preVerification at hpre
      obtain ⟨_, hval, hpre⟩ := bind_ok_iff.mp hpre
      obtain ⟨⟨b', d⟩, hb, hpre⟩ := bind_ok_iff.mp hpre
      cases b' with
      | false => simp at hpre
      | true =>
        have hver := hasVer_of_consistency σ t1 _ _ _ hb
        obtain ⟨S, k, hd, hview⟩ := digested_of_process σ t _ t1 ht1 hval hver
        rw [hview.consistency] at hb
        rw [hview.recompute, recompute_iff] at hcom
        obtain ⟨ρ, hρ⟩ := consistency_iff.mp ⟨d, hb⟩
        exact ⟨S, k, id', com, ρ, hd, hview.proofId.mp hid', by simpa using hh, hρ, hcom, hfin.symm⟩
  · rintro ⟨S, k, id, com, ρ, hd, hid, hh, hρ, hcom, rfl⟩
    obtain ⟨t1, h1, h2, hview⟩ := process_of_digested σ hd
    obtain ⟨d, hcons⟩ := consistency_iff.mpr ⟨ρ, hρ⟩
    rw [h1]; simp only [bind_ok]
    have e1 : checkStatement env σ t1 h = .ok id := by
      unfold checkStatement
      rw [hview.proofId.mpr hid]; simp [bind_ok, hh]
    have e2 : preVerification σ t1 tr.responses = .ok () := by
      unfold preVerification
      rw [h2]; simp only [bind_ok]; rw [hview.consistency, hcons]; rfl
    rw [e1]; simp only [bind_ok]; rw [e2]; simp only [bind_ok]
    rw [hview.recompute, (recompute_iff _ _ _ _).mpr hcom]
    simp only [bind_ok]

/-- **C64** For plain statements a transcript without precommitment that carries the hash of another statement is
refused with `StatementMismatch`, whatever else is in it. -/
theorem C64_other_statement (env : Env E) (σ : Store) (t : Core E) (tr : Sim E) (h : List UInt8) (id : PId E)
    (hp : tr.precommitment = .none) (hid : IsId (shape t) ((secrets t).map σ.name) id) (hh : h ≠ env.digest id) :
    verifySimulationConsistency env σ t tr h = .error .statementMismatch := by
  unfold verifySimulationConsistency
  have hpr : Tree.process σ (Tree.freshVerifier t) tr.precommitment = .ok t := by
    rw [fresh_core, hp]
    cases t <;> simp [Tree.process, StmtOps.process, Val.isNone, bind_ok]
  rw [hpr]
  simp only [bind_ok, checkStatement, (proofId_iff (skel_core t) (secretVars_core t)).mpr hid, if_pos hh]
  rfl

/-- **C64** The same for all statements: whenever the precommitment can be digested, a hash other than that of the
resulting statement is refused with `StatementMismatch`, whatever the challenge, commitment and responses. -/
theorem C64_wrong_hash (env : Env E) (σ : Store) (t : Stmt E) (tr : Sim E) (h : List UInt8) (S : Skel E) (k : Core E)
    (id : PId E) (hd : Digested σ t tr.precommitment S k) (hid : IsId S ((secrets k).map σ.name) id)
    (hh : h ≠ env.digest id) :
    verifySimulationConsistency env σ t tr h = .error .statementMismatch := by
  obtain ⟨t1, h1, _, hview⟩ := process_of_digested σ hd
  unfold verifySimulationConsistency
  rw [h1]
  simp only [bind_ok, checkStatement, hview.proofId.mpr hid, if_pos hh]
  rfl

/-- What is needed of every leaf to simulate it, in the heap `σ`. -/
def SimLeaf (F : Profile E) (q : Nat) (σ : Store) (Z : ExtSpec E → Val E → Prop) : Leaf E → Prop
  | .dlrep s => Solid (.leaf s) ∧ Torsion (.leaf s) ∧ OneOrder q (.leaf s)
  | .ext s => CanSimulate F q σ (Z s.spec) s.spec

/-- Helper: simulation and its consequences for all hash functions at once. -/
theorem simulate_anywhere (F : Profile E) (q : Nat) (Z : ExtSpec E → Val E → Prop) (t : Stmt E)
    (c : Option Int) (w : World) (hs : EveryLeaf (SimLeaf F q w.store Z) t) :
    ∃ tr id t' w', (∀ env : Env E, simulateTop env t c w = .ok ((tr, env.digest id, t'), w')) ∧
      Tree.proofId w'.store t' = .ok id ∧ (∀ s, tr.commitment ≠ .str s) ∧ (∀ b, tr.commitment ≠ .bytes b) ∧
      ((∀ sp s, ¬ Z sp (.str s)) → ∀ s, tr.precommitment ≠ .str s) ∧ w'.store = w.store ∧
      (∀ c0, c = some c0 → tr.challenge = c0) ∧
      EveryLeaf (LeafMade Z) t' ∧
      ∀ (env : Env E) (σv : Store) (tv : Stmt E), VerifierFor σv tv t → Named F w.store.name t → Named F σv.name t →
        (EveryLeaf LeafValid t' → verifySimulationConsistency env σv tv tr (env.digest id) = .ok true ∧
          ∀ msg,
            (verify env σv tv ⟨tr.challenge, tr.responses, tr.precommitment, env.digest id⟩ msg = .ok true ↔
              env.fiatShamir id tr.precommitment tr.commitment msg = .ok tr.challenge) ∧
            asked env σv tv ⟨tr.challenge, tr.responses, tr.precommitment, env.digest id⟩ msg =
              env.challengeInput id tr.precommitment tr.commitment msg) ∧
        ∀ e, Tree.fullValidate t' = .error e → verifySimulationConsistency env σv tv tr (env.digest id) = .error e := by
  let F' : Profile E := { F with reads := F.occurs, writes := fun _ _ => False, outside := fun _ => False }
  let A : Sec → Prop := fun _ => False
  have hu : updateSecretValues w.store [] = w.store := rfl
  have hd : Dict.Uniq w.store ([] : Dict Int) := trivial
  have hA : ∀ e ∈ ([] : Dict Int), ¬ A e.1 := by simp
  have hb : Tree.blank (Tree.setSimulated true t) = Tree.blank t := by
    cases t with
    | leaf l => cases l <;> rfl
    | and _ _ => rfl
    | or _ _ => rfl
  have hg : Good (LeafGood F' q Z A w.store) t := by
    refine good_of_every hs fun l hl => ?_
    cases l with
    | dlrep s =>
      obtain ⟨g1, g2, g3⟩ := hl
      exact ⟨⟨⟨g1, g2⟩, fun _ _ => id, fun _ _ => id⟩, g3⟩
    | ext s => exact ⟨hl, fun _ h => h, fun _ _ h => h.elim, fun _ h => h, fun h => h⟩
  have hgs : Good (LeafGood F' q Z A w.store) (Tree.setSimulated true t) := by
    cases hg with
    | leaf l h =>
      cases l with
      | dlrep s => exact .leaf _ h
      | ext s => exact .leaf _ h
    | and _ _ h1 h2 => exact .and _ _ h1 h2
    | or _ _ h1 h2 => exact .or _ _ h1 h2
  have laws := getLaws_stmt F' q [] Z A w.store hu hd hA
  obtain ⟨t1, w1, h1⟩ := prepareSim_good F' q [] Z A hu hd hA _ hgs w rfl
  obtain ⟨e1, _, e2, e3, k, e4, e5⟩ := prepareSim_law _ _ w.store laws.prep _ hgs t1 w w1 rfl h1
  have hacc := fun w1 w2 tr => simulate_accepts _ laws.simAcc t1 e2 w1 w2 none c tr
  replace e2 : Good (LeafBuilt F' q Z) t1 := good_wider (fun _ h => h.1) e2
  obtain ⟨tr, w2, h2, e6⟩ := simulate_built F' q Z t1 e2 none c w1 (by simp)
  obtain ⟨_, l1, l2, ρ, _, l3⟩ := simulate_stmt t1 k e4 e5 (by simp) h2
  replace hacc := hacc w1 w2 tr h2
  obtain ⟨S, hS⟩ : ∃ S, Tree.skel t1 = some S := by
    rw [← Option.isSome_iff_exists, ← Tree.core_skel, e4]; rfl
  obtain ⟨id, _, hid, _⟩ := Tree.proofId_isOk (σ := w2.store) hS
  have hb1 : Tree.blank t1 = Tree.blank t := e3.trans hb
  refine ⟨tr, id, t1, w2, fun env => ?_, hid, eqns_not_str l2, eqns_not_bytes l2, fun hZ s hp => ?_, e6.trans e1, l1,
    made_of_built e2, ?_⟩
  · unfold simulateTop
    rw [pm_bind_eq h1, pm_bind_eq h2, pm_getStore_bind, hid, pm_liftE_bind]
    rfl
  · cases t1 with
    | leaf l =>
      cases l with
      | dlrep s' =>
        have : tr.precommitment = .none := by
          change DLRep.simulate s' none c w1 = _ at h2
          exact simulate_dlrep_none h2
        rw [this] at hp; cases hp
      | ext s' =>
        change Ext.simulate s' none c w1 = _ at h2
        unfold Ext.simulate at h2
        rw [pm_liftE_bind_iff] at h2
        obtain ⟨k', _, h2⟩ := h2
        obtain ⟨tr', _, _, h2⟩ := pm_bind.mp h2
        rw [pm_pure_iff] at h2
        simp only [Prod.mk.injEq] at h2
        obtain ⟨rfl, _⟩ := h2
        simp only at hp
        have := made_of_built e2
        cases this with
        | leaf _ hm =>
          have hm' : Z s'.spec s'.precommitment := hm
          exact hZ _ s (hp ▸ hm')
    | and _ _ =>
      unfold Tree.simulate at h2
      obtain ⟨_, _, _, h2⟩ := pm_bind.mp h2
      obtain ⟨_, _, _, h2⟩ := pm_bind.mp h2
      obtain ⟨_, _, _, h2⟩ := pm_bind.mp h2
      rw [pm_pure_iff] at h2
      simp only [Prod.mk.injEq] at h2
      obtain ⟨rfl, _⟩ := h2
      cases hp
    | or _ _ =>
      unfold Tree.simulate at h2
      obtain ⟨_, _, _, h2⟩ := pm_bind.mp h2
      obtain ⟨_, _, _, h2⟩ := pm_bind.mp h2
      rw [pm_pure_iff] at h2
      simp only [Prod.mk.injEq] at h2
      obtain ⟨rfl, _⟩ := h2
      cases hp
  · intro env σv tv hv hna hnv
    have hj : Tree.Judge σv tv t1 := Tree.judge_blank hb1 (judge_of hv)
    have hsee : Sees w2.store σv (secrets k) :=
      sees_built e2 hb1 (by rw [e6, e1]; exact hna) hnv k e4
    have hid' := isId_of_sees hS e4 hid hsee
    obtain ⟨t2, g1, g2, g3, g4, g5⟩ := hacc.1 σv tv hj
    obtain ⟨f, hf⟩ := sees_fn hsee
    rw [e6] at hf
    have hag := agree_rename l3 hf
    constructor
    · intro hval
      obtain ⟨j1, j2, j3⟩ := checks_of (env := env) (σ := σv) (g2.trans hS) (g3.trans e4) g4
        (g5.trans (fullValidate_of_every hval)) hid' hag l2
      refine ⟨?_, fun msg => ?_⟩
      · unfold verifySimulationConsistency verifyResponse
        simp only [g1, j1, j2, j3, bind_ok, decide_true]
      · obtain ⟨t3, m1, m2, m3, m4, m5⟩ := digest_of_acceptsT hacc σv hj
        obtain ⟨n1, n2, n3⟩ := checks_of (env := env) (σ := σv) (m2.trans hS) (m3.trans e4) m4
          (m5.trans (fullValidate_of_every hval)) hid' hag l2
        have hv3 : Tree.proofId σv t3 = .ok id := by
          have := n1
          unfold checkStatement at this
          obtain ⟨id', hid3, this⟩ := bind_ok_iff.mp this
          split at this
          · cases this
          · cases this; exact hid3
        refine ⟨?_, by unfold asked; simp only [m1, hv3, n3, bind_ok]⟩
        unfold verify
        simp only [m1, n1, n2, n3, bind_ok]
        cases env.fiatShamir id tr.precommitment tr.commitment msg with
        | error e => simp [bind, Except.bind]
        | ok c' =>
          simp only [bind_ok, Except.ok.injEq, decide_eq_true_eq]
          exact eq_comm
    · intro e he
      have hvars : Tree.secretVars t2 = .ok (secrets k) := by
        rw [Tree.core_vars t2 k (g3.trans e4), secretVars_core]
      have hc : checkStatement env σv t2 (env.digest id) = .ok id := by
        unfold checkStatement
        rw [(proofId_iff (g2.trans hS) hvars).mpr hid']; simp [bind_ok]
      unfold verifySimulationConsistency
      simp only [g1, bind_ok, hc]
      unfold verifyResponse preVerification
      rw [g5, he]
      rfl

/-- **C64** `simulate()` on every composition (with `&` and `|`, nested in any way) of representations and extended
statements that can be simulated: it succeeds whatever the random numbers, changes no secret, uses the challenge
it is given; the transcript passes `verify_simulation_consistency` on every verifier's object for the same
statement, unless `validate()` of an extended part refuses the simulated precommitment; and presented as a proof it
is accepted only if its challenge happens to be the hash of its own parts. -/
theorem C64_simulate (F : Profile E) (q : Nat) (Z : ExtSpec E → Val E → Prop) (env : Env E) (t : Stmt E)
    (c : Option Int) (w : World) (hs : EveryLeaf (SimLeaf F q w.store Z) t) :
    ∃ tr h t' w', simulateTop env t c w = .ok ((tr, h, t'), w') ∧ w'.store = w.store ∧
      (∀ c0, c = some c0 → tr.challenge = c0) ∧
      EveryLeaf (LeafMade Z) t' ∧
      ∀ (σv : Store) (tv : Stmt E), VerifierFor σv tv t → Named F w.store.name t → Named F σv.name t →
        (EveryLeaf LeafValid t' → verifySimulationConsistency env σv tv tr h = .ok true ∧
          ∃ id, h = env.digest id ∧ ∀ msg,
            (verify env σv tv ⟨tr.challenge, tr.responses, tr.precommitment, h⟩ msg = .ok true ↔
              env.fiatShamir id tr.precommitment tr.commitment msg = .ok tr.challenge)) ∧
        ∀ e, Tree.fullValidate t' = .error e → verifySimulationConsistency env σv tv tr h = .error e := by
  obtain ⟨tr, id, t', w', h1, _, _, _, _, h2, h3, h4, h5⟩ := simulate_anywhere F q Z t c w hs
  refine ⟨tr, env.digest id, t', w', h1 env, h2, h3, h4, fun σv tv hv hna hnv => ?_⟩
  obtain ⟨h6, h7⟩ := h5 env σv tv hv hna hnv
  refine ⟨fun hval => ?_, h7⟩
  obtain ⟨h8, h9⟩ := h6 hval
  exact ⟨h8, id, rfl, fun msg => (h9 msg).1⟩

/-- Representations, inequality proofs, power-of-two range proofs by somebody who does not know the value, and proofs
of BBS+ signatures, over groups of order `q`; nothing is said about truth, values or signatures. -/
inductive Primitive (q : Nat) : Leaf E → Prop
  | rep (s : DLRep E) (h : Solid (.leaf s)) (h' : Torsion (.leaf s)) (hq : OneOrder q (.leaf s)) : Primitive q (.dlrep s)
  | notEqual (s : NotEqual E) (a : Ext E) (ha : a.spec = s.spec) (hq : s.g.grp.order = q) (h0 : q ≠ 0)
      (hgrp : ∀ p ∈ [s.lhs0, s.lhs1, s.h, s.gen], p.grp = s.g.grp) : Primitive q (.ext a)
  | range (s : PowerTwo E) (a : Ext E) (ha : a.spec = s.spec) (hq : s.g.grp.order = q) (h0 : q ≠ 0)
      (hgrp : s.com.grp = s.g.grp ∧ s.h.grp = s.g.grp) (htor : (q : Int) • s.h.val = 0) (hn : 2 ≤ s.numBits)
      (hp : s.isProver = false) : Primitive q (.ext a)
  | signature (P : Pairing E) (s : BBS E) (gen : E) (a : Ext E) (ha : a.spec = s.spec gen) (hq : P.order = q) (h0 : q ≠ 0)
      (hP : s.P = P) (hk : GoodKey P s.pk) (h3 : 3 ≤ s.vars.length) (hfit : s.vars.length ≤ s.pk.generators.length) :
      Primitive q (.ext a)

/-- The profile that says nothing. -/
def anyProfile : Profile E where
  reads _ _ := True
  writes _ _ := True
  occurs _ _ := True

/-- Helper: less can be said about simulated precommitments. -/
theorem canSimulate_any {F : Profile E} {q : Nat} {σ : Store} {Z : Val E → Prop} {sp : ExtSpec E}
    (h : CanSimulate F q σ Z sp) : CanSimulate anyProfile q σ (fun _ => True) sp := by
  intro w hw
  obtain ⟨v, w', k, h1, h2, h3, h4, h5, h6, _, _⟩ := h w hw
  exact ⟨v, w', k, h1, h2, h3, h4, h5, h6, fun _ _ => trivial, trivial⟩

/-- **C64** The instance for the primitives of the library, true or false, in any combination with `&` and `|`. -/
theorem C64_primitives (q : Nat) (env : Env E) (t : Stmt E) (c : Option Int) (w : World)
    (hs : EveryLeaf (Primitive q) t) (hn : Function.Injective w.store.name) :
    ∃ tr h t' w', simulateTop env t c w = .ok ((tr, h, t'), w') ∧ w'.store = w.store ∧
      (∀ c0, c = some c0 → tr.challenge = c0) ∧
      ∀ (σv : Store) (tv : Stmt E), VerifierFor σv tv t → Function.Injective σv.name →
        (EveryLeaf LeafValid t' → verifySimulationConsistency env σv tv tr h = .ok true ∧
          ∃ id, h = env.digest id ∧ ∀ msg,
            (verify env σv tv ⟨tr.challenge, tr.responses, tr.precommitment, h⟩ msg = .ok true ↔
              env.fiatShamir id tr.precommitment tr.commitment msg = .ok tr.challenge)) ∧
        ∀ e, Tree.fullValidate t' = .error e → verifySimulationConsistency env σv tv tr h = .error e := by
  have hs' : EveryLeaf (SimLeaf anyProfile q w.store fun _ _ => True) t := by
    have imp : ∀ l : Leaf E, Primitive q l → SimLeaf anyProfile q w.store (fun _ _ => True) l := by
      intro l hl
      cases hl with
      | rep s h h' hq => exact ⟨h, h', hq⟩
      | notEqual s a ha hq h0 hgrp =>
        subst hq
        show CanSimulate _ _ _ _ a.spec
        rw [ha]
        exact canSimulate_any (NotEqual.canSimulate (fun p hp => hgrp p (by simp at hp ⊢; tauto)) (hgrp _ (by simp)) h0
          anyProfile (fun _ _ => trivial) _)
      | range s a ha hq h0 hgrp htor hn hp =>
        subst hq
        show CanSimulate _ _ _ _ a.spec
        rw [ha]
        exact canSimulate_any (PowerTwo.canSimulate hgrp.1 hgrp.2 h0 htor hn (by rw [hp]; simp) anyProfile
          fun _ _ => trivial)
      | signature P s gen a ha hq h0 hP hk h3 hfit =>
        subst hq
        show CanSimulate _ _ _ _ a.spec
        rw [ha]
        exact canSimulate_any (BBS.canSimulate hP hk h0 h3 hfit gen anyProfile (fun _ _ => trivial) _)
    clear hn
    induction hs with
    | leaf l h => exact .leaf l (imp l h)
    | all b subs hne _ ih => exact .all b subs hne ih
    | any b subs hne _ ih => exact .any b subs hne ih
  obtain ⟨tr, h, t', w', h1, h2, h3, _, h4⟩ := C64_simulate anyProfile q (fun _ _ => True) env t c w hs'
  exact ⟨tr, h, t', w', h1, h2, h3, fun σv tv hv hinj =>
    h4 σv tv hv (fun x y _ _ h => hn h) (fun x y _ _ h => hinj h)⟩

/-- `2 = x·1`, or an inequality and a range proof, with no values known. -/
def exSimulated : Stmt (ZMod 7) :=
  .or false [.leaf (.dlrep ⟨Ex.P 2, [Ex.P 1], [2], [], false⟩),
    .and false [(exNe true).stmt, ({ exThree with isProver := false } : PowerTwo (ZMod 7)).stmt]]

/-- The hypotheses of `C64_primitives` are met by `exSimulated`. -/
theorem exSimulated_primitive : EveryLeaf (Primitive 7) exSimulated ∧ Function.Injective exNeStore.name := by
  constructor
  · refine .any _ _ (by simp) fun t ht => ?_
    simp only [List.mem_cons, List.not_mem_nil, or_false] at ht
    rcases ht with rfl | rfl
    · refine .leaf _ (.rep _ ⟨by decide, by decide, by decide, by decide⟩ ?_ ?_)
      · intro x b h
        simp only [terms, List.zip_cons_cons, List.zip_nil_right, List.mem_singleton, Prod.mk.injEq] at h
        rw [h.2]; decide
      · intro x b h
        simp only [terms, List.zip_cons_cons, List.zip_nil_right, List.mem_singleton, Prod.mk.injEq] at h
        rw [h.2]; rfl
    · refine .all _ _ (by simp) fun t ht => ?_
      simp only [List.mem_cons, List.not_mem_nil, or_false] at ht
      rcases ht with rfl | rfl
      · exact .leaf _ (.notEqual (exNe true) _ rfl rfl (by decide) (by decide))
      · exact .leaf _ (.range { exThree with isProver := false } _ rfl rfl (by decide) (by decide) (by decide) (by decide) rfl)
  · intro x y h
    have := congrArg String.length h
    simpa [exNeStore] using this

/-- The hypotheses of `C64_other_statement` are met by every plain statement, as hash functions have more than one
value: here by `2 = x·1`. -/
example (tr : Sim (ZMod 7)) (hp : tr.precommitment = .none) (h : List UInt8) :
    ∃ id, IsId (shape (.leaf ⟨Ex.P 2, [Ex.P 1], [2], [], false⟩ : Core (ZMod 7))) [exNeStore.name 2] id ∧
      (h ≠ (Ex.env 5).digest id → verifySimulationConsistency (Ex.env 5) exNeStore
        (.leaf ⟨Ex.P 2, [Ex.P 1], [2], [], false⟩ : Core (ZMod 7)) tr h = .error .statementMismatch) := by
  obtain ⟨id, _, hid, _⟩ := Tree.proofId_isOk (σ := exNeStore)
    (skel_core (.leaf ⟨Ex.P 2, [Ex.P 1], [2], [], false⟩ : Core (ZMod 7)))
  have := (proofId_iff (skel_core _) (secretVars_core _)).mp hid
  exact ⟨id, this, fun hh => C64_other_statement (Ex.env 5) exNeStore _ tr h id hp this hh⟩

/-- The hypotheses of `C64_wrong_hash` are met by the range statement `exRange` and its precommitment. -/
example (tr : Sim (ZMod 7)) (hp : tr.precommitment = exRangePre) :
    ∃ S k id, Digested exNeStore (exRange false).stmt tr.precommitment S k ∧
      IsId S ((secrets k).map exNeStore.name) id := by
  obtain ⟨k, hk, hval⟩ : ∃ k, (exRange false).construct exNeStore exRangePre = .ok k ∧
      (exRange false).validate exRangePre = .ok () := ⟨_, rfl, by decide⟩
  have hd : Digested exNeStore (exRange false).stmt exRangePre (.ext (exRange false).spec.cls exRangePre (shape k)) k :=
    .ext _ _ _ hk hval
  obtain ⟨t1, _, _, hview⟩ := process_of_digested exNeStore hd
  obtain ⟨id, _, hid, _⟩ := Tree.proofId_isOk (σ := exNeStore) hview.1
  rw [hp]
  exact ⟨_, k, id, hd, hview.proofId.mp hid⟩

end Zksk.Props
