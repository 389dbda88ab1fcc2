import Verif.Lemmas.Tame
import Verif.Lemmas.AliasProver
import Verif.Lemmas.Truth
import Verif.Props.Complete

/-! # The sub-challenges of honest provers (C104) -/

set_option linter.unusedSectionVars false

namespace Zksk.Props

open Spec

variable {E : Type} [AddCommGroup E] [DecidableEq E]

/-! ### Plain statements -/

/-- **C104** Every proof that `prove()` returns for a statement without extended parts gives one sub-challenge per clause
in every disjunction, however deep, and each lies in `(-2^128, 2^128)`.  So the condition of C19, C102 and C103 on
responses, which `verify()` does not check, is met by every honest proof. -/
theorem C104_prove_plain (env : Env E) (t t' : Core E) (d : Dict Int) (msg : String) (w w' : World) (nizk : NIZK E)
    (h : prove (DLRepProver E) env t d msg w = .ok ((nizk, t'), w')) : Ranged t nizk.responses := by
  unfold prove at h
  obtain ⟨⟨p?, t1⟩, w1, h1, h⟩ := pm_bind.mp h
  cases p? with
  | none => exact (raise_ne.mp h).elim
  | some p =>
    simp only at h
    obtain ⟨⟨n, p'⟩, w2, h2, h⟩ := pm_bind.mp h
    simp only [pm_pure_iff, Prod.mk.injEq] at h
    obtain ⟨⟨rfl, _⟩, _⟩ := h
    unfold PTree.getNizkProof at h2
    obtain ⟨⟨v, p1⟩, w3, h3, h2⟩ := pm_bind.mp h2
    obtain ⟨⟨com, p2⟩, w4, h4, h2⟩ := pm_bind.mp h2
    simp only at h2
    rw [pm_getStore_bind] at h2
    obtain ⟨id, _, h2⟩ := pm_liftE_bind_iff.mp h2
    obtain ⟨c, _, h2⟩ := pm_liftE_bind_iff.mp h2
    obtain ⟨r, w5, h5, h2⟩ := pm_bind.mp h2
    simp only [pm_pure_iff, Prod.mk.injEq] at h2
    obtain ⟨⟨rfl, _⟩, _⟩ := h2
    have g1 := precommit_tame (fun _ _ _ _ _ _ _ => trivial) p p1 v _ _ (getProver_tame_core h1) h3
    refine response_tame_core (commit_tame_core g1 h4) h5 ?_
    have e1 := (getProver_keeps keepCore _ _ _ _ _ _ h1).2 p rfl
    have e2 := precommit_keeps keepCore _ _ _ _ _ h3
    have e3 := commit_keeps keepCore _ _ _ _ _ _ h4
    exact (shape_blank _ _ (e3.trans (e2.trans e1))).1

/-- The statement of the examples has a disjunction in it. -/
example (c : Int) (rng : Nat → Nat) : ∃ nizk t' w',
    prove (DLRepProver (ZMod 7)) (Ex.env c) exTree exDict "m" ⟨Ex.σ, rng⟩ = .ok ((nizk, t'), w') ∧ Ranged exTree nizk.responses := by
  obtain ⟨nizk, t', w', h, _⟩ := exTree_proves c rng
  exact ⟨nizk, t', w', h, C104_prove_plain _ _ _ _ _ _ _ _ h⟩

/-- The condition is not met by all responses: these carry one sub-challenge too many, one that is too large, or none at all. -/
example : ¬ Ranged (.or false [.leaf Ex.rep3, .leaf Ex.rep3] : Core (ZMod 7))
      (.tuple [.list [.int 0, .int 0, .int 5], .list [.list [], .list []]]) ∧
    ¬ Ranged (.or false [.leaf Ex.rep3, .leaf Ex.rep3] : Core (ZMod 7))
      (.tuple [.list [.int 0, .int (2 ^ 128)], .list [.list [], .list []]]) ∧
    ¬ Ranged (.or false [.leaf Ex.rep3, .leaf Ex.rep3] : Core (ZMod 7)) (.list []) := by
  refine ⟨?_, ?_, ?_⟩
  · rintro ⟨cs, rs, h, h1, _⟩
    simp only [Val.tuple.injEq, List.cons.injEq, Val.list.injEq] at h
    have := congrArg List.length h.1
    simp at this h1
    omega
  · rintro ⟨cs, rs, h, _, h2, _⟩
    simp only [Val.tuple.injEq, List.cons.injEq, Val.list.injEq] at h
    have hm : (Val.int (2 ^ 128) : Val (ZMod 7)) ∈ cs.map Val.int := by rw [← h.1]; simp
    obtain ⟨c, hc, he⟩ := List.mem_map.mp hm
    have := (h2 c hc).2
    injection he with he
    omega
  · rintro ⟨cs, rs, h, _⟩
    cases h

/-- **C104** This is more than C19, C102 and C103 ask of the responses. -/
theorem C104_in_range (t : Core E) (r : Val E) (h : Ranged t r) : InRange t r := ranged_inRange t r h

/-- It is strictly more: what is not a tuple satisfies the condition of C19 for want of sub-challenges. -/
example : InRange (.or false [.leaf Ex.rep3] : Core (ZMod 7)) (.list []) := by
  refine ⟨fun cs h => ?_, fun rs h => ?_⟩ <;> simp [Val.index] at h

/-- **C104** The same holds for the answer of a prover in the interactive protocol to any challenge at all, whatever
happens between their steps. -/
theorem C104_interactive_plain (env : Env E) (t t' : Core E) (d : Dict Int) (p p1 p2 : CoreProver E) (v com r : Val E) (h : List UInt8)
    (c : Int) (w0 w0' w1 w1' w2 w2' w3 w3' : World)
    (hg : PTree.getProver t d w0 = .ok ((some p, t'), w0')) (hp : PTree.precommit p w1 = .ok ((v, p1), w1'))
    (hc : PTree.commit env p1 w2 = .ok (((h, com), p2), w2')) (hr : PTree.computeResponse p2 c w3 = .ok (r, w3')) :
    Ranged t r := by
  unfold PTree.commit at hc
  rw [pm_getStore_bind] at hc
  obtain ⟨id, _, hc⟩ := pm_liftE_bind_iff.mp hc
  obtain ⟨⟨com', p2'⟩, w4, h4, hc⟩ := pm_bind.mp hc
  simp only [pm_pure_iff, Prod.mk.injEq] at hc
  obtain ⟨⟨_, rfl⟩, _⟩ := hc
  have g1 := precommit_tame (fun _ _ _ _ _ _ _ => trivial) p p1 v _ _ (getProver_tame_core hg) hp
  refine response_tame_core (commit_tame_core g1 h4) hr ?_
  have e1 := (getProver_keeps keepCore _ _ _ _ _ _ hg).2 p rfl
  have e2 := precommit_keeps keepCore _ _ _ _ _ hp
  have e3 := commit_keeps keepCore _ _ _ _ _ _ h4
  exact (shape_blank _ _ (e3.trans (e2.trans e1))).1

/-- A run that meets the hypotheses, with challenge 5. -/
example : ∃ p t' w0 v p1 w1 h com p2 w2 r w3,
    (PTree.getProver exTree exDict ⟨Ex.σ, fun _ => 3⟩ : Except Err ((Option (CoreProver (ZMod 7)) × _) × World)) = .ok ((some p, t'), w0) ∧
    PTree.precommit p w0 = .ok ((v, p1), w1) ∧ PTree.commit (Ex.env 0) p1 w1 = .ok (((h, com), p2), w2) ∧
    PTree.computeResponse p2 5 w2 = .ok (r, w3) :=
  ⟨_, _, _, _, _, _, _, _, _, _, _, _, rfl, rfl, rfl, rfl⟩

/-- **C104** … and for the transcripts that `simulate()` returns. -/
theorem C104_simulate_plain (env : Env E) (t t' : Core E) (c : Option Int) (w w' : World) (tr : Sim E) (h : List UInt8)
    (hs : simulateTop env t c w = .ok ((tr, h, t'), w')) : Ranged t tr.responses := by
  unfold simulateTop at hs
  obtain ⟨t1, w1, h1, hs⟩ := pm_bind.mp hs
  obtain ⟨tr', w2, h2, hs⟩ := pm_bind.mp hs
  rw [pm_getStore_bind] at hs
  obtain ⟨id, _, hs⟩ := pm_liftE_bind_iff.mp hs
  simp only [pm_pure_iff, Prod.mk.injEq] at hs
  obtain ⟨⟨rfl, _, _⟩, _⟩ := hs
  have e := (prepare_keeps keepCore _ _ _ _ h1).trans (mark_keeps keepCore true t)
  refine ranged_shape _ _ _ ?_ (simulate_tame_core t1 _ (core_blank t1) _ _ _ _ _ h2).2.2
  rw [(core_secrets (core_blank t1)).2]
  exact (shape_blank _ _ e).1

example (rng : Nat → Nat) : ∃ tr h t' w', simulateTop (Ex.env 1) exTree (some 2) ⟨Ex.σ0, rng⟩ = .ok ((tr, h, t'), w') ∧
    Ranged exTree tr.responses := by
  obtain ⟨tr, h, t', w', hs⟩ := C22_simulation_exists (Ex.env 1) exTree (some 2) ⟨Ex.σ0, rng⟩ exTree_solid
  exact ⟨tr, h, t', w', hs, C104_simulate_plain _ _ _ _ _ _ _ _ hs⟩

/-! ### Extended statements -/

/-- Somebody found two identifiers with the same hash. -/
def Collision (env : Env E) : Prop := ∃ id id' : PId E, id ≠ id' ∧ env.digest id = env.digest id'

private theorem same_core {σ σ' : Store} {t u : Stmt E} {k k' : Core E} {id : PId E} (h : Tree.proofId σ t = .ok id)
    (h' : Tree.proofId σ' u = .ok id) (hk : Tree.core t = some k) (hk' : Tree.core u = some k') : shape k = shape k' := by
  obtain ⟨S, _, _, h1, h2, _⟩ := Tree.proofId_ok h
  obtain ⟨S', _, _, h1', h2', _⟩ := Tree.proofId_ok h'
  obtain ⟨rfl, _⟩ := (Tree.proofId_eq_iff h1 h1' h2 h2').mp (h.trans h'.symm)
  exact (Tree.core_erase t k S hk h1).trans (Tree.core_erase u k' S hk' h1').symm

private theorem has_core {σ : Store} {t : Stmt E} {id : PId E} (h : Tree.proofId σ t = .ok id) : ∃ k, Tree.core t = some k := by
  obtain ⟨S, _, _, h1, _⟩ := Tree.proofId_ok h
  exact Option.isSome_iff_exists.mp (by rw [Tree.core_skel, h1]; rfl)

/-- What a verifier who got past the comparison of hashes makes of the statement is as deep as what the prover made of theirs. -/
private theorem range_transfer {env : Env E} {σ σv : Store} {t t1 tv : Stmt E} {id id1 : PId E} {v r : Val E} {S : Skel E} {k : Core E}
    (hid : Tree.proofId σ t = .ok id) (ht : ∀ k, Tree.core t = some k → Ranged k r)
    (hproc : Tree.process σv (Tree.freshVerifier tv) v = .ok t1) (hck : checkStatement env σv t1 (env.digest id) = .ok id1)
    (hd : Digested σv tv v S k) : Ranged k r ∨ Collision env := by
  unfold checkStatement at hck
  obtain ⟨id2, hid2, hck⟩ := bind_ok_iff.mp hck
  by_cases heq : env.digest id = env.digest id2
  · by_cases hne : id = id2
    · subst hne
      left
      obtain ⟨k0, hk0⟩ := has_core hid
      obtain ⟨u, hu, _, _, hv, _⟩ := process_of_digested σv hd
      rw [hproc] at hu
      cases hu
      have hk1 : Tree.core t1 = some (Tree.blank k) := by rw [hv, core_blank]
      refine ranged_shape k0 k r ?_ (ht k0 hk0)
      rw [same_core hid hid2 hk0 hk1]
      exact (core_secrets (core_blank k)).2
    · exact .inr ⟨id, id2, hne, heq⟩
  · simp [heq] at hck

/-- **C104** For statements with extended parts anywhere in them: whenever a verifier -- with a heap and a statement of their own --
reaches a verdict about a proof that `prove()` returned, then what they check gives one sub-challenge per clause in every
disjunction, those inside extended statements included, each in `(-2^128, 2^128)`, unless a collision of the hash function
was found. -/
theorem C104_prove (env : Env E) (t t' tv : Stmt E) (d : Dict Int) (msg msg' : String) (w w' : World) (σv : Store) (nizk : NIZK E) (b : Bool)
    (h : prove (LeafProver E) env t d msg w = .ok ((nizk, t'), w')) (hv : verify env σv tv nizk msg' = .ok b)
    (S : Skel E) (k : Core E) (hd : DigestedTop σv tv nizk.precommitment S k) : Ranged k nizk.responses ∨ Collision env := by
  unfold prove at h
  obtain ⟨⟨p?, t1⟩, w1, h1, h⟩ := pm_bind.mp h
  cases p? with
  | none => exact (raise_ne.mp h).elim
  | some p =>
    simp only at h
    obtain ⟨⟨n, p'⟩, w2, h2, h⟩ := pm_bind.mp h
    simp only [pm_pure_iff, Prod.mk.injEq] at h
    obtain ⟨⟨rfl, _⟩, _⟩ := h
    unfold PTree.getNizkProof at h2
    obtain ⟨⟨v, p1⟩, w3, h3, h2⟩ := pm_bind.mp h2
    obtain ⟨⟨com, p2⟩, w4, h4, h2⟩ := pm_bind.mp h2
    simp only at h2
    rw [pm_getStore_bind] at h2
    obtain ⟨id, hid, h2⟩ := pm_liftE_bind_iff.mp h2
    obtain ⟨c, _, h2⟩ := pm_liftE_bind_iff.mp h2
    obtain ⟨r, w5, h5, h2⟩ := pm_bind.mp h2
    simp only [pm_pure_iff, Prod.mk.injEq] at h2
    obtain ⟨⟨rfl, _⟩, _⟩ := h2
    have g := commit_tame_stmt (precommit_tame_stmt (getProver_tame_stmt h1) h3) h4
    unfold verify at hv
    obtain ⟨u, hu, hv⟩ := bind_ok_iff.mp hv
    obtain ⟨id1, hck, hv⟩ := bind_ok_iff.mp hv
    simp only at hd hu hck
    refine range_transfer hid (fun k0 hk0 => response_tame_stmt g h5 hk0) (t1 := u) ?_ hck (digestedTop_digested hd)
    unfold digestPrecommitment at hu
    split at hu
    · rename_i hn
      injection hu with hu
      rcases hd with ⟨rfl, rfl, _⟩ | ⟨hne, _⟩
      · rw [← hu, (view_embed k).2.1]
        exact process_embed σv k
      · exact absurd (isNone_iff.mp hn) hne
    · exact hu

/-- An extended statement that constructs the disjunction `5 = x2·3 or 5 = x2·3`. -/
def exEitherWay : Ext (ZMod 7) :=
  ⟨⟨"Either", fun _ _ => .ok (.or false [.leaf { Ex.rep3 with secretValues := [(2, 4)] }, .leaf { Ex.rep3 with secretValues := [(2, 4)] }]),
    fun _ => .ok (), pure (.int 1), pure (.int 1)⟩, false, .none, none, none⟩

/-- The statement that consists of it. -/
abbrev exEitherWayStmt : Stmt (ZMod 7) := .leaf (.ext exEitherWay)

/-- The hypotheses are met by it, with a verifier who knows no values. -/
example : ∃ x k, prove (LeafProver (ZMod 7)) (Ex.env 1) exEitherWayStmt [] "" ⟨Ex.σ, fun _ => 3⟩ = .ok x ∧
    verify (Ex.env 1) Ex.σ0 exEitherWayStmt x.1.1 "" = .ok true ∧
    DigestedTop Ex.σ0 exEitherWayStmt x.1.1.precommitment (.ext "Either" (.int 1) (shape k)) k :=
  ⟨_, _, rfl, rfl, .inr ⟨by simp, .ext exEitherWay _ _ rfl rfl⟩⟩

/-- **C104** The same in the interactive protocol, for every challenge … -/
theorem C104_interactive (env : Env E) (t t' tv t1 : Stmt E) (d : Dict Int) (p p1 p2 : StmtProver E) (v com r : Val E) (h : List UInt8)
    (c : Int) (id : PId E) (σv : Store) (w0 w0' w1 w1' w2 w2' w3 w3' : World)
    (hg : PTree.getProver t d w0 = .ok ((some p, t'), w0')) (hp : PTree.precommit p w1 = .ok ((v, p1), w1'))
    (hv : Tree.process σv (Tree.freshVerifier tv) v = .ok t1)
    (hc : PTree.commit env p1 w2 = .ok (((h, com), p2), w2')) (hck : checkStatement env σv t1 h = .ok id)
    (hr : PTree.computeResponse p2 c w3 = .ok (r, w3'))
    (S : Skel E) (k : Core E) (hd : Digested σv tv v S k) : Ranged k r ∨ Collision env := by
  unfold PTree.commit at hc
  rw [pm_getStore_bind] at hc
  obtain ⟨id, hid, hc⟩ := pm_liftE_bind_iff.mp hc
  obtain ⟨⟨com', p2'⟩, w4, h4, hc⟩ := pm_bind.mp hc
  simp only [pm_pure_iff, Prod.mk.injEq] at hc
  obtain ⟨⟨⟨rfl, _⟩, rfl⟩, _⟩ := hc
  have g := commit_tame_stmt (precommit_tame_stmt (getProver_tame_stmt hg) hp) h4
  rw [← Alias.commit_keeps p1 none h4] at hid
  exact range_transfer hid (fun k0 hk0 => response_tame_stmt g hr hk0) hv hck hd

/-- A run that meets the hypotheses. -/
example : ∃ p t' w0 v p1 w1 t1 h com p2 w2 id r w3 k,
    (PTree.getProver exEitherWayStmt [] ⟨Ex.σ, fun _ => 3⟩ : Except Err ((Option (StmtProver (ZMod 7)) × _) × World)) =
      .ok ((some p, t'), w0) ∧
    PTree.precommit p w0 = .ok ((v, p1), w1) ∧ Tree.process Ex.σ0 (Tree.freshVerifier exEitherWayStmt) v = .ok t1 ∧
    PTree.commit (Ex.env 0) p1 w1 = .ok (((h, com), p2), w2) ∧ checkStatement (Ex.env 0) Ex.σ0 t1 h = .ok id ∧
    PTree.computeResponse p2 5 w2 = .ok (r, w3) ∧
    Digested Ex.σ0 exEitherWayStmt v (.ext "Either" v (shape k)) k :=
  ⟨_, _, _, _, _, _, _, _, _, _, _, _, _, _, _, rfl, rfl, rfl, rfl, rfl, rfl, .ext exEitherWay _ _ rfl rfl⟩

/-- **C104** … and for simulated transcripts that a verifier looks at with `verify_simulation_consistency`. -/
theorem C104_simulate (env : Env E) (t t' tv : Stmt E) (c : Option Int) (w w' : World) (σv : Store) (tr : Sim E) (h : List UInt8) (b : Bool)
    (hs : simulateTop env t c w = .ok ((tr, h, t'), w')) (hv : verifySimulationConsistency env σv tv tr h = .ok b)
    (S : Skel E) (k : Core E) (hd : Digested σv tv tr.precommitment S k) : Ranged k tr.responses ∨ Collision env := by
  unfold simulateTop at hs
  obtain ⟨t1, w1, h1, hs⟩ := pm_bind.mp hs
  obtain ⟨tr', w2, h2, hs⟩ := pm_bind.mp hs
  rw [pm_getStore_bind] at hs
  obtain ⟨id, hid, hs⟩ := pm_liftE_bind_iff.mp hs
  simp only [pm_pure_iff, Prod.mk.injEq] at hs
  obtain ⟨⟨rfl, rfl, _⟩, _⟩ := hs
  unfold verifySimulationConsistency at hv
  obtain ⟨u, hu, hv⟩ := bind_ok_iff.mp hv
  obtain ⟨id1, hck, _⟩ := bind_ok_iff.mp hv
  exact range_transfer hid (fun k0 hk0 => (simulate_tame_stmt t1 k0 hk0 _ _ _ _ _ h2).2.2) hu hck hd

example : ∃ tr h t' w' k, simulateTop (Ex.env 1) exEitherWayStmt none ⟨Ex.σ, fun _ => 3⟩ = .ok ((tr, h, t'), w') ∧
    verifySimulationConsistency (Ex.env 1) Ex.σ0 exEitherWayStmt tr h = .ok true ∧
    Digested Ex.σ0 exEitherWayStmt tr.precommitment (.ext "Either" tr.precommitment (shape k)) k :=
  ⟨_, _, _, _, _, rfl, rfl, .ext exEitherWay _ _ rfl rfl⟩

end Zksk.Props
