import Verif.Lemmas.StmtRun
import Verif.Examples

/-! # C54: honest runs of statements with extended parts -/

set_option linter.unusedSectionVars false

namespace Zksk.Props

open Spec

variable {E : Type} [AddCommGroup E] [DecidableEq E]

/-- Helper: `prove` in terms of its two halves. -/
theorem stmt_prove_of {t t' : Stmt E} {d : Dict Int} {w w1 w2 : World} {p p' : StmtProver E} {env : Env E}
    {msg : String} {nizk : NIZK E}
    (h : (PTree.getProver t d : PM (Option (StmtProver E) × Stmt E)) w = .ok ((some p, t'), w1))
    (hn : PTree.getNizkProof env p msg w1 = .ok ((nizk, p'), w2)) :
    prove (LeafProver E) env t d msg w = .ok ((nizk, PTree.stmtOf p'), w2) := by
  unfold prove
  rw [pm_bind_eq h]
  simp only
  rw [pm_bind_eq hn]
  rfl

/-- **C54** Non-interactive proofs.  Let `t` be composed of representations and extended statements, all over
groups of one order, such that the leaves that may be chosen are true, and every secret an extended statement
writes is its own.  Extended statements that cannot be simulated, or whose precommitments count as false, may be used
outside of disjunctions (`Profile.outside`).  Then `prove()` succeeds for every message and every sequence of random draws, changes only
the values of the arguments and of the secrets written by extended statements, precommitments have the property
`Z` said of those of the extended statements, and `verify()` of the result
with the same message, by a verifier with an object of its own for the same statement, is `True`, unless
some extended statement rejects its precommitment; in that case it raises the exception with which
`validate()` rejects. -/
theorem C54_proofs_accepted (F : Profile E) (q : Nat) (Z : ExtSpec E → Val E → Prop) (env : Env E)
    (t : Stmt E) (d : Dict Int) (w : World) (msg : String) (ht : ∀ s, t ≠ .leaf (.dlrep s))
    (h : Spec.Ready F q (updateSecretValues w.store d) d Z t) :
    ∃ nizk t' w', prove (LeafProver E) env t d msg w = .ok ((nizk, t'), w') ∧
      w'.store.name = w.store.name ∧
      (∀ x, ¬ AtLeaf (leafWrites F) t x → w'.store.key x = (updateSecretValues w.store d).key x) ∧
      EveryLeaf (LeafMade Z) t' ∧
      ∀ (σv : Store) (tv : Stmt E), VerifierFor σv tv t → Named F w.store.name t → Named F σv.name t →
        (EveryLeaf LeafValid t' → verify env σv tv nizk msg = .ok true) ∧
        ∀ e, Tree.fullValidate t' = .error e → verify env σv tv nizk msg = .error e := by
  have hn : (updateSecretValues w.store d).name = w.store.name := updateSecretValues_name _ _
  obtain ⟨p, t', w1, h1, h2, ⟨nizk, p', w2, h3, h4, h5, h6, _, h7, h8⟩, _⟩ :=
    stmt_run F q d Z (AtLeaf (leafWrites F) t) h.args h.hashable ht h.uniq (good_of_ready h) (sat_of_ready h)
      h.separate (fun x hx => hx) (hn ▸ h.tidy) env msg
  refine ⟨nizk, _, w2, stmt_prove_of h1 h3, h4, fun x hx => (h7 x hx).trans (by rw [h2]),
    made_of_built h5, fun σv tv hj hna hnv => ?_⟩
  have := h8 σv tv (judge_of hj) fun k hk => sees_built h5 h6 (h4 ▸ hna) hnv k hk
  rw [this]
  constructor
  · intro hv
    rw [fullValidate_of_every hv]; rfl
  · intro e he
    rw [he]; rfl

/-- Helper: a conjunction lets the challenge pass. -/
theorem gate_and {σv : Store} {a : Ext E} {v : Val E} {t1 : Stmt E}
    (h : ∀ v k, a.spec.construct σv v = .ok k → ∃ b subs, k = .and b subs)
    (ht1 : Tree.process σv (Tree.freshVerifier (.leaf (.ext a) : Stmt E)) v = .ok t1) : Tree.gate t1 = .ok () := by
  simp only [Tree.freshVerifier, Tree.process] at ht1
  obtain ⟨l, h1, h2⟩ := bind_ok_iff.mp ht1
  cases h2
  simp only [StmtOps.freshVerifier, StmtOps.process] at h1
  obtain ⟨e, h3, h4⟩ := bind_ok_iff.mp h1
  cases h4
  unfold Ext.process Ext.fullConstruct at h3
  obtain ⟨e', h5, h6⟩ := bind_ok_iff.mp h3
  obtain ⟨k, h7, h8⟩ := bind_ok_iff.mp h5
  obtain ⟨b, subs, rfl⟩ := h _ _ h7
  cases h8; cases h6
  rfl

/-- **C54** The interactive protocol: under the same conditions it ends with acceptance, when the
precommitments are such that `validate()` accepts them.  An extended statement on its own must construct a
conjunction, see `C55_only_conjunctions`. -/
theorem C54_protocol_accepts (F : Profile E) (q : Nat) (Z : ExtSpec E → Val E → Prop) (env : Env E)
    (t : Stmt E) (d : Dict Int) (w : World) (ht : ∀ s, t ≠ .leaf (.dlrep s))
    (h : Spec.Ready F q (updateSecretValues w.store d) d Z t)
    (hZ : ∀ sp v, Z sp v → sp.validate v = .ok ()) (σv : Store) (tv : Stmt E) (hv : VerifierFor σv tv t)
    (hand : ∀ e, tv = .leaf (.ext e) → ∀ v k, e.spec.construct σv v = .ok k → ∃ b subs, k = .and b subs)
    (hna : Named F w.store.name t) (hnv : Named F σv.name t) :
    ∃ p t' w1 w2, (PTree.getProver t d : PM (Option (StmtProver E) × Stmt E)) w = .ok ((some p, t'), w1) ∧
      sigmaProtocol env σv tv p w1 = .ok (true, w2) := by
  have hn : (updateSecretValues w.store d).name = w.store.name := updateSecretValues_name _ _
  obtain ⟨p, t', w1, h1, h2, _, v, p1, w2, h3, h4, h5, h6, h7, h8⟩ :=
    stmt_run F q d Z (AtLeaf (leafWrites F) t) h.args h.hashable ht h.uniq (good_of_ready h)
      (sat_of_ready h) h.separate (fun x hx => hx) (hn ▸ h.tidy) env ""
  obtain ⟨w', hw'⟩ := h8 σv tv (judge_of hv) (fullValidate_of_every (every_of_built hZ h5))
    (fun k hk => sees_built h5 h6 (h4 ▸ hna) hnv k hk) (by
      intro t1 ht1
      cases hv with
      | leaf a b hl =>
        cases b with
        | dlrep b => exact (ht _ rfl).elim
        | ext b =>
          cases a with
          | dlrep a => exact hl.elim
          | ext a => exact gate_and (hand a rfl) ht1
      | all b b' ts us hlen _ =>
        simp only [Tree.freshVerifier, Tree.process] at ht1
        split at ht1
        · cases ht1; rfl
        · obtain ⟨_, _, e⟩ := bind_ok_iff.mp ht1; cases e; rfl
      | any b b' ts us hlen _ =>
        simp only [Tree.freshVerifier, Tree.process] at ht1
        split at ht1
        · cases ht1; rfl
        · obtain ⟨_, _, e⟩ := bind_ok_iff.mp ht1; cases e; rfl)
  exact ⟨p, t', w1, w', h1, hw'⟩

/-! ### C55 -/

/-- **C55** The interactive protocol on an extended statement of its own never ends with a verdict when the
statement that the verifier constructs is not a conjunction: whatever the prover object, the heaps and the random
draws, some exception is raised. -/
theorem C55_only_conjunctions (env : Env E) (σv : Store) (e : Ext E) (p : StmtProver E) (w : World)
    (h : ∀ v b subs, e.spec.construct σv v ≠ .ok (.and b subs)) :
    ∃ err, sigmaProtocol env σv (.leaf (.ext e) : Stmt E) p w = .error err := by
  cases hr : sigmaProtocol env σv (.leaf (.ext e) : Stmt E) p w with
  | error err => exact ⟨err, rfl⟩
  | ok x =>
    exfalso
    obtain ⟨r, w'⟩ := x
    unfold sigmaProtocol at hr
    obtain ⟨⟨v, p1⟩, w1, _, h2⟩ := pm_bind.mp hr
    obtain ⟨t1, h3, h4⟩ := pm_liftE_bind_iff.mp h2
    obtain ⟨⟨⟨hash, com⟩, p2⟩, w2, _, h6⟩ := pm_bind.mp h4
    obtain ⟨c, w3, h7, _⟩ := pm_bind.mp h6
    unfold sendChallenge at h7
    obtain ⟨_, _, h8⟩ := pm_liftE_bind_iff.mp h7
    obtain ⟨_, h9, _⟩ := pm_liftE_bind_iff.mp h8
    simp only [Tree.freshVerifier, Tree.process] at h3
    obtain ⟨l, g1, g2⟩ := bind_ok_iff.mp h3
    cases g2
    simp only [StmtOps.freshVerifier, StmtOps.process] at g1
    obtain ⟨e1, g3, g4⟩ := bind_ok_iff.mp g1
    cases g4
    unfold Ext.process Ext.fullConstruct at g3
    obtain ⟨e2, g5, g6⟩ := bind_ok_iff.mp g3
    obtain ⟨k, g7, g8⟩ := bind_ok_iff.mp g5
    cases g8; cases g6
    cases k with
    | and b subs => exact h _ _ _ g7
    | leaf l => simp [Tree.gate, ChallengeOps.gate, Tree.freshVerifier, Tree.ignoresHash, StmtOps.ignoresHash] at h9
    | or b subs => simp [Tree.gate, ChallengeOps.gate, Tree.freshVerifier, Tree.ignoresHash] at h9

/-- **C55** The exception comes from `send_challenge`, and it is a `TypeError`, when the statements of both sides
agree. -/
theorem C55_type_error (env : Env E) (σv : Store) (e e' : Ext E) (v : Val E) (k : Core E) (hash : List UInt8)
    (w : World) (hp : StmtOps.process σv (StmtOps.freshVerifier e) v = .ok e')
    (hk : e.spec.construct σv v = .ok k) (hb : ∀ b subs, k ≠ .and b subs)
    (hc : ∃ id, checkStatement env σv (.leaf (.ext e') : Stmt E) hash = .ok id) :
    sendChallenge env σv (.leaf (.ext e') : Stmt E) hash w = .error .typeError := by
  obtain ⟨id, hc⟩ := hc
  simp only [StmtOps.freshVerifier, StmtOps.process, Ext.process, Ext.fullConstruct, hk, bind_ok,
    Option.map_some, Except.ok.injEq] at hp
  subst hp
  unfold sendChallenge
  rw [hc, pm_liftE_bind]
  cases k with
  | and b subs => exact (hb _ _ rfl).elim
  | leaf l => rfl
  | or b subs => rfl

/-- A statement that constructs a single representation; every precommitment will do. -/
def exSingle : Ext (ZMod 7) :=
  ⟨⟨"Single", fun _ _ => .ok (.leaf { Ex.rep2 with secretValues := [(0, 2)] }), fun _ => .ok (), pure (.int 1),
    pure (.int 1)⟩, false, .none, none, none⟩

/-- The hypotheses of `C55_type_error` are met when prover and verifier have the same statement; the same statement
has a proof that is accepted. -/
example : ∃ e', StmtOps.process Ex.σ (StmtOps.freshVerifier exSingle) (.int 1) = .ok e' ∧
    (∃ id, checkStatement (Ex.env 1) Ex.σ (.leaf (.ext e') : Stmt (ZMod 7)) [] = .ok id) ∧
    (∃ x, prove (LeafProver (ZMod 7)) (Ex.env 1) (.leaf (.ext exSingle)) [] "" ⟨Ex.σ, fun _ => 3⟩ = .ok x ∧
      verify (Ex.env 1) Ex.σ0 (.leaf (.ext exSingle) : Stmt (ZMod 7)) x.1.1 "" = .ok true) :=
  ⟨_, rfl, ⟨_, rfl⟩, _, rfl, rfl⟩

end Zksk.Props
