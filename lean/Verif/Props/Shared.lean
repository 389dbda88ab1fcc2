import Verif.Lemmas.Shared
import Verif.Props.NotEqual
import Mathlib.Tactic.Linarith

namespace Zksk.Props

open Zksk Spec Shared

variable {E : Type} [AddCommGroup E] [DecidableEq E]

/-- **C88** A verifier that shares its extended statement object with others, as long as none of the
others stores a precommitment in the object between `process_precommitment` and `verify`, sends the
challenge and returns the verdict of a verifier with a statement object of its own. -/
theorem C88_verifier_partial (env : Env E) (o : Objs E) (w : World) (j : Nat) (x : VerifierObj E)
    (hx : o.verifiers[j]? = some x) (v : Val E) (t1 : Stmt E)
    (hp : Tree.process w.store (Tree.freshVerifier (.leaf (.ext (own o.stmt)))) v = .ok t1)
    (ks ks' : List (Call E)) (hks : ∀ k ∈ ks, ¬ Replaces k ∧ ¬ OnVerifier j k)
    (hks' : ∀ k ∈ ks', ¬ Replaces k ∧ ¬ OnVerifier j k) (h : List UInt8) (com : Val E) :
    (step env o w (.process j v)).1 = .ok .unit ∧
    ∀ o1 w1, run env (.process j v :: ks) o w = (o1, w1) →
      (step env o1 w1 (.challenge j h com)).1 = seen (sendChallenge env w1.store t1 h) w1 .challenge ∧
      ∀ c w1', sendChallenge env w1.store t1 h w1 = .ok (c, w1') →
        ∀ o2 w2, run env (.challenge j h com :: ks') o1 w1 = (o2, w2) → ∀ r,
          (step env o2 w2 (.verify j r)).1 = (verifyResponse w2.store t1 com c r).map .verdict := by
  obtain ⟨t, hc, rfl⟩ := own_process hp
  have hst := step_process (env := env) hx hc
  refine ⟨by rw [hst], fun o1 w1 h1 => ?_⟩
  rw [run_cons, hst] at h1
  have hx1 := run_verifier env (x := { x with constructed := some (Tree.freshVerifier t) }) ks
    { stmt := { o.stmt with precommitment := v, constructed := some t }, provers := o.provers,
      verifiers := o.verifiers.set j { x with constructed := some (Tree.freshVerifier t) } } w
    (set_self hx) fun k hk => (hks k hk).2
  have hs1 := run_stmt env ks
    { stmt := { o.stmt with precommitment := v, constructed := some t }, provers := o.provers,
      verifiers := o.verifiers.set j { x with constructed := some (Tree.freshVerifier t) } } w
    fun k hk => (hks k hk).1
  rw [h1] at hx1 hs1
  have hview : o1.verifier { x with constructed := some (Tree.freshVerifier t) } =
      .leaf (.ext { o.stmt with precommitment := v, constructed := some t, verifier := some (Tree.freshVerifier t) }) := by
    unfold Objs.verifier
    rw [show o1.stmt = _ from hs1]
  constructor
  · simp only [step, hx1, challenge, hview, seen]
    split
    · rename_i e he; rw [he]; rfl
    · rename_i c w' he; rw [he]; rfl
  · intro c w1' hsc o2 w2 h2 r
    have hst2 : step env o1 w1 (.challenge j h com) = (.ok (.challenge c),
        { o1 with verifiers := o1.verifiers.set j ⟨some (Tree.freshVerifier t), some com, some c⟩ }, w1') := by
      simp only [step, hx1, challenge, hview, hsc]
    rw [run_cons, hst2] at h2
    have hx2 := run_verifier env (x := ⟨some (Tree.freshVerifier t), some com, some c⟩) ks'
      { o1 with verifiers := o1.verifiers.set j ⟨some (Tree.freshVerifier t), some com, some c⟩ } w1'
      (set_self hx1) fun k hk => (hks' k hk).2
    have hs2 := run_stmt env ks'
      { o1 with verifiers := o1.verifiers.set j ⟨some (Tree.freshVerifier t), some com, some c⟩ } w1'
      fun k hk => (hks' k hk).1
    rw [h2] at hx2 hs2
    have hview2 : o2.verifier ⟨some (Tree.freshVerifier t), some com, some c⟩ =
        .leaf (.ext { o.stmt with precommitment := v, constructed := some t, verifier := some (Tree.freshVerifier t) }) := by
      unfold Objs.verifier
      rw [show o2.stmt = _ from hs2, show o1.stmt = _ from hs1]
    simp only [step, hx2, verifyCall, hview2]

/-- **C88** A prover that shares its extended statement object with others, as long as none of the
others stores a precommitment in the object between `precommit` and `commit`, sends the precommitment,
the commitment and the response of a prover with a statement object of its own.  Between `commit` and
`compute_response` the others may do what they like. -/
theorem C88_prover_partial (env : Env E) (o : Objs E) (w w' : World) (i : Nat) (p : ProverObj E)
    (hp : o.provers[i]? = some p) (v : Val E) (q1 : StmtProver E)
    (hq : PTree.precommit (.leaf (.ext ⟨own o.stmt, p.secretValues, none⟩) : StmtProver E) w = .ok ((v, q1), w'))
    (ks ks' : List (Call E)) (hks : ∀ k ∈ ks, ¬ Replaces k ∧ ¬ OnProver i k) (hks' : ∀ k ∈ ks', ¬ OnProver i k) :
    (step env o w (.precommit i)).1 = .ok (.val v) ∧
    ∀ o1 w1, run env (.precommit i :: ks) o w = (o1, w1) →
      (step env o1 w1 (.commit i)).1 = seen (PTree.commit env q1) w1 (fun a => .commitment a.1.1 a.1.2) ∧
      ∀ h com q2 w1', PTree.commit env q1 w1 = .ok (((h, com), q2), w1') →
        ∀ o2 w2, run env (.commit i :: ks') o1 w1 = (o2, w2) → ∀ c,
          (step env o2 w2 (.respond i c)).1 = seen (PTree.computeResponse q2 c) w2 .val := by
  obtain ⟨cp, t', rfl, hst⟩ := step_precommit (env := env) hp hq
  refine ⟨by rw [hst], fun o1 w1 h1 => ?_⟩
  rw [run_cons, hst] at h1
  have hp1 := run_prover env (p := ⟨p.secretValues, cp⟩) ks
    { stmt := { o.stmt with precommitment := v, constructed := some t' },
      provers := o.provers.set i ⟨p.secretValues, cp⟩, verifiers := o.verifiers } w'
    (set_self hp) fun k hk => (hks k hk).2
  have hs1 := run_stmt env ks
    { stmt := { o.stmt with precommitment := v, constructed := some t' },
      provers := o.provers.set i ⟨p.secretValues, cp⟩, verifiers := o.verifiers } w'
    fun k hk => (hks k hk).1
  rw [h1] at hp1 hs1
  have hs1' : o1.stmt = { o.stmt with precommitment := v, constructed := some t' } := hs1
  obtain ⟨ha, hb⟩ := step_commit (env := env) (w := w1)
    (s := { own o.stmt with precommitment := v, constructed := some t' }) hp1
    (by rw [hs1']; rfl) (by rw [hs1']) (by rw [hs1'])
  refine ⟨ha, fun h com q2 w1' hcom o2 w2 h2 c => ?_⟩
  obtain ⟨cp', rfl, hst2⟩ := hb _ _ _ _ hcom
  rw [run_cons, hst2] at h2
  have hp2 := run_prover env (p := ⟨p.secretValues, cp'⟩) ks'
    { o1 with provers := o1.provers.set i ⟨p.secretValues, cp'⟩ } w1' (set_self hp1) hks'
  rw [h2] at hp2
  have hr : ∀ s : Ext E, PTree.computeResponse (.leaf (.ext ⟨s, p.secretValues, cp'⟩) : StmtProver E) c =
      ExtProver.computeResponse ⟨o2.stmt, p.secretValues, cp'⟩ c := fun s => by
    unfold PTree.computeResponse
    show ExtProver.computeResponse _ c = _
    rfl
  rw [hr]
  simp only [step, show o2.provers[i]? = _ from hp2, respond, Objs.prover, seen]
  split
  · rename_i e he; rw [he]; rfl
  · rename_i r w3 he; rw [he]; rfl

/-- **C88** A non-interactive proof is checked, and made, in one call: whatever happened to the
statement object before, the result is that of a statement object of one's own. -/
theorem C88_nizk (env : Env E) (o : Objs E) (w : World) (message : String) :
    (∀ n : NIZK E, n.precommitment.isNone = false →
      (step env o w (.check n message)).1 =
        (verify env w.store (.leaf (.ext (own o.stmt)) : Stmt E) n message).map .verdict) ∧
    ∀ d : Dict Int, (step env o w (.prove d message)).1 =
      seen (prove (LeafProver E) env (.leaf (.ext (own o.stmt)) : Stmt E) d message) w (fun a => .proof a.1) := by
  constructor
  · intro n hn
    simp only [step, checkCall]
    congr 1
    unfold verify digestPrecommitment
    rw [hn]
    rfl
  · exact fun d => step_prove env o w d message

/-- **C88** The claim without the restriction is false for verifiers, and soundness is lost: two
verifiers of one `DLNotEqual` object that are used at the same time accept from a prover that knows
nothing but `x` (not even that, without `bind`), whether the logarithms differ or not.  The prover
commits, waits for the challenge `c` of the first verifier, and hands the second verifier a
precommitment made for this `c`; the first verifier then accepts. -/
theorem C88_false (env : Env E) (s : NotEqual E) (o : Objs E) (w : World) (j j' : Nat) (hj : j ≠ j')
    (x x' : VerifierObj E) (hx : o.verifiers[j]? = some x) (hx' : o.verifiers[j']? = some x')
    (hs : o.stmt.spec = s.spec) (hq : s.g.grp.order.Prime)
    (hgrp : ∀ p ∈ [s.lhs0, s.lhs1, s.h], p.grp = s.g.grp)
    (htor : (s.g.grp.order : Int) • s.h.val = 0) (hh : s.h.val ≠ 0)
    (hbind : s.bind = true → (∃ y : Int, s.lhs0.val = y • s.g.val) ∧
      w.store.key s.x ≠ w.store.key s.alpha ∧ w.store.key s.x ≠ w.store.key s.beta) :
    ∃ v h com o1 w1 c o2 w2,
      step env o w (.process j v) = (.ok .unit, o1, w1) ∧
      step env o1 w1 (.challenge j h com) = (.ok (.challenge c), o2, w2) ∧
      (¬ (s.g.grp.order : Int) ∣ c → ∃ v' r o3 w3,
        step env o2 w2 (.process j' v') = (.ok .unit, o3, w3) ∧
        (step env o3 w3 (.verify j r)).1 = .ok (.verdict true)) := by
  have g0 : s.lhs0.grp = s.g.grp := hgrp _ (by simp)
  have g1 : s.lhs1.grp = s.g.grp := hgrp _ (by simp)
  have g2 : s.h.grp = s.g.grp := hgrp _ (by simp)
  have hcon : ∀ σ c, o.stmt.spec.construct σ (.pt c) = .ok (s.built σ c) := fun σ c => by
    rw [hs]; exact NotEqual.construct_of g0 (g1.trans g2.symm) σ c
  have hfresh : Tree.freshVerifier (s.built w.store s.h) = s.built w.store s.h := by
    unfold NotEqual.built; cases s.bind <;> rfl
  have st1 := step_process (env := env) hx (hcon w.store s.h)
  let t1 : Stmt E := .leaf (.ext { o.stmt with
    precommitment := .pt s.h, constructed := some (s.built w.store s.h),
    verifier := some (Tree.freshVerifier (s.built w.store s.h)) })
  obtain ⟨id, _, hid, _⟩ := Tree.proofId_isOk (σ := w.store) (t := t1) (k := .ext o.stmt.spec.cls (.pt s.h)
    (coreSkel (s.built w.store s.h))) (by
      simp [t1, Tree.skel, StmtView.skel, skel_core])
  have hch : sendChallenge env w.store t1 (env.digest id) w =
      .ok (((w.rng 0 % 2 ^ 128 : Nat) : Int), { w with rng := fun i => w.rng (i + 1) }) := by
    unfold sendChallenge checkStatement
    rw [hid, bind_ok, if_neg (by simp), pm_liftE_bind]
    rw [show Tree.gate t1 = .ok () by
      simp only [t1, Tree.gate, ChallengeOps.gate, hfresh]; unfold NotEqual.built; rfl, pm_liftE_bind]
    rfl
  have st2 := step_challenge (env := env) (com := s.blindCom)
    (o := ⟨{ o.stmt with precommitment := .pt s.h, constructed := some (s.built w.store s.h) }, o.provers,
      o.verifiers.set j { x with constructed := some (Tree.freshVerifier (s.built w.store s.h)) }⟩) (set_self hx) hch
  refine ⟨.pt s.h, env.digest id, s.blindCom, _, _, _, _, _, st1, st2, fun hc => ?_⟩
  obtain ⟨u, hu⟩ := exists_inv hq hc
  have hu' : (((w.rng 0 % 2 ^ 128 : Nat) : Int) * u) • s.h.val = s.h.val := by
    obtain ⟨m, hm⟩ := hu
    rw [show ((w.rng 0 % 2 ^ 128 : Nat) : Int) * u = m * (s.g.grp.order : Int) + 1 by linarith, add_smul, mul_smul,
      htor, smul_zero, zero_add, one_smul]
  have hy : ∃ y : Int, s.bind = true → s.lhs0.val = y • s.g.val ∧
      w.store.key s.x ≠ w.store.key s.alpha ∧ w.store.key s.x ≠ w.store.key s.beta := by
    by_cases hb : s.bind = true
    · obtain ⟨⟨y, h1⟩, h2⟩ := hbind hb
      exact ⟨y, fun _ => ⟨h1, h2⟩⟩
    · exact ⟨0, fun h => absurd h hb⟩
  obtain ⟨y, hy⟩ := hy
  have hx2 : ((o.verifiers.set j { x with constructed := some (Tree.freshVerifier (s.built w.store s.h)) }).set j
      ⟨some (Tree.freshVerifier (s.built w.store s.h)), some s.blindCom, some ((w.rng 0 % 2 ^ 128 : Nat) : Int)⟩)[j']? = some x' := by
    rw [List.getElem?_set_ne hj, List.getElem?_set_ne hj, hx']
  have st3 := step_process (env := env) (w := { w with rng := fun i => w.rng (i + 1) })
    (o := ⟨{ o.stmt with precommitment := .pt s.h, constructed := some (s.built w.store s.h) }, o.provers,
      (o.verifiers.set j { x with constructed := some (Tree.freshVerifier (s.built w.store s.h)) }).set j
      ⟨some (Tree.freshVerifier (s.built w.store s.h)), some s.blindCom, some ((w.rng 0 % 2 ^ 128 : Nat) : Int)⟩⟩)
    hx2 (hcon w.store (Pt.smul u s.h))
  refine ⟨.pt (Pt.smul u s.h), s.blindResp (((w.rng 0 % 2 ^ 128 : Nat) : Int) * y), _, _, st3, ?_⟩
  rw [step_verify (k := some (Tree.freshVerifier (s.built w.store s.h))) (com := s.blindCom)
    (c := ((w.rng 0 % 2 ^ 128 : Nat) : Int)) (by
      show (List.set _ j' _)[j]? = _
      rw [List.getElem?_set_ne hj.symm]
      exact set_self (set_self hx))]
  have := NotEqual.blind_accepted (σ := w.store) (σ' := w.store) (v := s.h) hgrp o.stmt.simulated hu' hh hy
  rw [← hs] at this
  exact congrArg (Except.map Reply.verdict) this

/-- **C88** Nor does it hold for provers: if somebody else stores another precommitment in the statement
object before the prover commits (another prover that sends one, a verifier that receives one, `prove()`
or `verify()` of the statement), a verifier that has received the precommitment of this prover refuses
its commitment with `StatementMismatch` (or the digest function has a collision). -/
theorem C88_prover_false (env : Env E) (o : Objs E) (w w1 : World) (i : Nat) (p : ProverObj E)
    (hp : o.provers[i]? = some p) (v : Val E) (q : StmtProver E)
    (hq : PTree.precommit (.leaf (.ext ⟨own o.stmt, p.secretValues, none⟩) : StmtProver E) w = .ok ((v, q), w1))
    (k : Call E) (v' : Val E)
    (hs : ∀ o1, step env o w (.precommit i) = (.ok (.val v), o1, w1) → Stores env o1 w1 k v') (hv : v ≠ v')
    (ks : List (Call E)) (hks : ∀ k ∈ ks, ¬ Replaces k)
    (o2 : Objs E) (w2 : World) (hr : run env (.precommit i :: k :: ks) o w = (o2, w2))
    (h : List UInt8) (com : Val E) (hc : (step env o2 w2 (.commit i)).1 = .ok (.commitment h com))
    (s : Ext E) (σv : Store) (t1 : Stmt E)
    (ht : Tree.process σv (Tree.freshVerifier (.leaf (.ext (own s)))) v = .ok t1) (wv : World) :
    sendChallenge env σv t1 h wv = .error .statementMismatch ∨ ∃ a b : PId E, a ≠ b ∧ env.digest a = env.digest b := by
  obtain ⟨cp, t', rfl, hst⟩ := step_precommit (env := env) hp hq
  have hk1 := step_stores env _ _ (hs _ hst)
  rw [run_cons, hst, run_cons] at hr
  have h2 : o2.stmt = _ := (congrArg (fun a => a.1.stmt) hr).symm.trans (run_stmt env ks _ _ hks)
  have hid : ∃ id, h = env.digest id ∧ ∃ n, id = .ext o.stmt.spec.cls v' n := by
    simp only [step] at hc
    cases hpi : o2.provers[i]? with
    | none => rw [hpi] at hc; cases hc
    | some pi =>
      rw [hpi] at hc
      simp only [commit] at hc
      split at hc
      · cases hc
      · rename_i id hid
        split at hc
        · cases hc
        · cases hc
          obtain ⟨n, hn⟩ := leaf_id hid
          rw [h2, hk1.1, hk1.2] at hn
          exact ⟨id, rfl, n, hn⟩
  obtain ⟨id, rfl, n, rfl⟩ := hid
  obtain ⟨t, _, rfl⟩ := own_process ht
  obtain ⟨id', _, hid', _⟩ := Tree.proofId_isOk (σ := σv)
    (t := (.leaf (.ext ⟨s.spec, s.simulated, v, some t, some (Tree.freshVerifier t)⟩) : Stmt E))
    (k := .ext s.spec.cls v (coreSkel t)) (by simp [Tree.skel, StmtView.skel, skel_core])
  obtain ⟨n', rfl⟩ := leaf_id hid'
  by_cases hd : env.digest (.ext o.stmt.spec.cls v' n) = env.digest (.ext s.spec.cls v n')
  · refine .inr ⟨_, _, fun he => ?_, hd⟩
    injection he with _ he _
    exact hv he.symm
  · left
    unfold sendChallenge checkStatement
    rw [hid', bind_ok, if_pos hd]
    rfl

/-- **C88** A new prover: `get_prover(d)` stores the values and returns what it does for a statement
object of one's own. -/
theorem C88_get_prover (env : Env E) (o : Objs E) (w : World) (d : Dict Int) :
    ∃ p w', (step env o w (.getProver d)) = (.ok .unit, { o with provers := o.provers ++ [p] }, w') ∧
      (PTree.getProver (.leaf (.ext (own o.stmt)) : Stmt E) d : PM (Option (StmtProver E) × Stmt E)) w =
        .ok ((some (.leaf (.ext ⟨own o.stmt, p.secretValues, p.constructed⟩)), .leaf (.ext (own o.stmt))), w') := by
  refine ⟨⟨d, none⟩, { w with store := updateSecretValues w.store d }, rfl, ?_⟩
  unfold PTree.getProver
  rfl

/-- **C88** No verdict without a challenge: whatever is called on the statement object, its provers and
its verifiers, a verifier all of whose calls of `send_challenge` have raised (or that has received none)
raises from `verify`. -/
theorem C88_no_verdict (env : Env E) (o : Objs E) (w : World) (ho : o.verifiers = []) (j : Nat) (ks : List (Call E))
    (hks : ∀ ks1 ks2 h com, ks = ks1 ++ .challenge j h com :: ks2 → ∀ c o1 w1, run env ks1 o w = (o1, w1) →
      (step env o1 w1 (.challenge j h com)).1 ≠ .ok (.challenge c))
    (o1 : Objs E) (w1 : World) (hr : run env ks o w = (o1, w1)) (r : Val E) :
    ∃ e, (step env o1 w1 (.verify j r)).1 = .error e := by
  have hu := run_unasked env (j := j) ks o w (fun x hx => by rw [ho] at hx; cases hx)
    fun ks1 ks2 h com he c => hks ks1 ks2 h com he c _ _ rfl
  rw [hr] at hu
  simp only [step]
  cases hx : o1.verifiers[j]? with
  | none => exact ⟨_, rfl⟩
  | some x =>
    have hn : x.challenge = none := hu x hx
    simp only [verifyCall, hn]
    split
    · rename_i h; cases h
    · cases hp : preVerification w1.store (o1.verifier x) r with
      | error e => exact ⟨e, rfl⟩
      | ok b => exact ⟨_, rfl⟩

/-! ### Concrete cases -/

/-- A false inequality: `2 = 2·1` and `6 = 2·3`. -/
def exEqual (bind : Bool) : NotEqual (ZMod 7) := { exNe bind with lhs1 := Ex.P 6 }

/-- A statement object of class `DLNotEqual` with two provers and two verifiers, unused so far. -/
def exOneObj (s : NotEqual (ZMod 7)) : Objs (ZMod 7) :=
  ⟨⟨s.spec, false, .none, none, none⟩, [⟨[(2, 2)], none⟩, ⟨[(2, 2)], none⟩], [⟨none, none, none⟩, ⟨none, none, none⟩]⟩

/-- The false inequality meets the hypotheses of `C88_false`, with and without `bind`. -/
example (bind : Bool) (w : World) (hw : w.store = exNeStore) :
    (exEqual bind).lhs0.val = 2 • (exEqual bind).g.val ∧ (exEqual bind).lhs1.val = 2 • (exEqual bind).h.val ∧
    (exEqual bind).g.grp.order.Prime ∧ (∀ p ∈ [(exEqual bind).lhs0, (exEqual bind).lhs1, (exEqual bind).h], p.grp = (exEqual bind).g.grp) ∧
    (((exEqual bind).g.grp.order : Nat) : Int) • (exEqual bind).h.val = 0 ∧ (exEqual bind).h.val ≠ 0 ∧
    w.store.key (exEqual bind).x ≠ w.store.key (exEqual bind).alpha ∧
    w.store.key (exEqual bind).x ≠ w.store.key (exEqual bind).beta := by
  rw [hw]
  refine ⟨by cases bind <;> decide, by cases bind <;> decide, (by decide : Nat.Prime 7), ?_, ?_, ?_, ?_, ?_⟩
  · cases bind <;> decide
  · cases bind <;> decide
  · cases bind <;> decide
  · cases bind <;> decide
  · cases bind <;> decide

/-- A run of the attack with the challenge 3: the second precommitment is `5·3`, as `3·5 = 1`. -/
example (bind : Bool) : ∃ o1 w1 o2 w2 o3 w3,
    step (Ex.env 5) (exOneObj (exEqual bind)) ⟨exNeStore, fun _ => 3⟩ (.process 0 (.pt (Ex.P 3))) = (.ok .unit, o1, w1) ∧
    step (Ex.env 5) o1 w1 (.challenge 0 [] (exEqual bind).blindCom) = (.ok (.challenge 3), o2, w2) ∧
    step (Ex.env 5) o2 w2 (.process 1 (.pt (Ex.P 1))) = (.ok .unit, o3, w3) ∧
    (step (Ex.env 5) o3 w3 (.verify 0 ((exEqual bind).blindResp 6))).1 = .ok (.verdict true) := by
  cases bind with
  | false => exact ⟨_, _, _, _, _, _, rfl, rfl, rfl, rfl⟩
  | true => exact ⟨_, _, _, _, _, _, rfl, rfl, rfl, rfl⟩

/-- The same responses are refused by a verifier with a statement object of its own. -/
example (bind : Bool) : ∃ o1 w1 o2 w2,
    step (Ex.env 5) (exOneObj (exEqual bind)) ⟨exNeStore, fun _ => 3⟩ (.process 0 (.pt (Ex.P 3))) = (.ok .unit, o1, w1) ∧
    step (Ex.env 5) o1 w1 (.challenge 0 [] (exEqual bind).blindCom) = (.ok (.challenge 3), o2, w2) ∧
    (step (Ex.env 5) o2 w2 (.verify 0 ((exEqual bind).blindResp 6))).1 = .ok (.verdict false) := by
  cases bind with
  | false => exact ⟨_, _, _, _, rfl, rfl, rfl⟩
  | true => exact ⟨_, _, _, _, rfl, rfl, rfl⟩

/-- A conversation of prover 0 and verifier 1 over the same object in which another prover and another
verifier are created and prover 1 is called in between. -/
def exTalk (bind : Bool) : Bool :=
  match step (Ex.env 5) (exOneObj (exNe bind)) ⟨exNeStore, fun _ => 3⟩ (.precommit 0) with
  | (.ok (.val v), o1, w1) =>
    match step (Ex.env 5) o1 w1 (.commit 0) with
    | (.ok (.commitment h com), o2, w2) =>
      let (o3, w3) := run (Ex.env 5) [.process 1 v, .getVerifier, .getProver [], .commit 1] o2 w2
      match step (Ex.env 5) o3 w3 (.challenge 1 h com) with
      | (.ok (.challenge c), o4, w4) =>
        match step (Ex.env 5) o4 w4 (.respond 0 c) with
        | (.ok (.val r), o5, w5) =>
          match (step (Ex.env 5) o5 w5 (.verify 1 r)).1 with
          | .ok (.verdict b) => b
          | _ => false
        | _ => false
      | _ => false
    | _ => false
  | _ => false

example (bind : Bool) : exTalk bind = true := by
  cases bind <;> decide +kernel

/-- Two provers of one object that draw different blinders send different precommitments. -/
example (bind : Bool) : ∃ v v' o1 w1 o2 w2,
    step (Ex.env 5) (exOneObj (exNe bind)) ⟨exNeStore, fun i => i + 1⟩ (.precommit 0) = (.ok (.val v), o1, w1) ∧
    step (Ex.env 5) o1 w1 (.precommit 1) = (.ok (.val v'), o2, w2) ∧
    (∃ h com, (step (Ex.env 5) o2 w2 (.commit 0)).1 = .ok (.commitment h com)) ∧ v ≠ v' := by
  cases bind with
  | false => exact ⟨.pt (Ex.P 1), .pt (Ex.P 2), _, _, _, _, rfl, rfl, ⟨_, _, rfl⟩, by decide⟩
  | true => exact ⟨.pt (Ex.P 1), .pt (Ex.P 2), _, _, _, _, rfl, rfl, ⟨_, _, rfl⟩, by decide⟩

/-- `prove()` of the statement, and a verifier that receives a precommitment which it cannot use, also
come between `precommit` and `commit` of a prover. -/
def exDisturbed (bind : Bool) (k : Call (ZMod 7)) : Bool :=
  match step (Ex.env 5) (exOneObj (exNe bind)) ⟨exNeStore, fun i => i + 1⟩ (.precommit 0) with
  | (.ok (.val _), o1, w1) =>
    let r := step (Ex.env 5) o1 w1 k
    match (step (Ex.env 5) r.2.1 r.2.2 (.commit 0)).1 with
    | .ok (.commitment _ _) => true
    | _ => false
  | _ => false

example (bind : Bool) : exDisturbed bind (.prove [(2, 2)] "") = true ∧ exDisturbed bind (.process 1 .none) = true := by
  cases bind <;> decide +kernel

/-- Such a precommitment is refused, and is stored nevertheless. -/
example (bind : Bool) : ∃ o1 e w1, step (Ex.env 5) (exOneObj (exNe bind)) ⟨exNeStore, fun _ => 3⟩ (.process 1 .none) =
    (.error e, o1, w1) ∧ Stores (Ex.env 5) (exOneObj (exNe bind)) ⟨exNeStore, fun _ => 3⟩ (.process 1 .none) .none := by
  cases bind with
  | false => exact ⟨_, _, _, rfl, rfl, by decide⟩
  | true => exact ⟨_, _, _, rfl, rfl, by decide⟩

/-- A verifier that has sent no challenge (0) and one that has refused the statement hash (1), with
responses that have the right shape. -/
example : ∀ j, j < 2 →
    (step (Ex.env 5) (run (Ex.env 5) [.getVerifier, .getVerifier, .process 0 (.pt (Ex.P 3)), .process 1 (.pt (Ex.P 3)),
        .challenge 1 [1] .none] { exOneObj (exNe true) with verifiers := [] } ⟨exNeStore, fun _ => 3⟩).1
      ⟨exNeStore, fun _ => 3⟩ (.verify j ((exEqual true).blindResp 6))).1 = .error .attributeError := by
  intro j hj
  match j, hj with
  | 0, _ => rfl
  | 1, _ => rfl

end Zksk.Props
