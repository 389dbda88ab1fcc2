import Verif.SpecQuery
import Verif.Lemmas.SameDist
import Verif.Lemmas.Fork
import Verif.Lemmas.Witness

/-! Proofs made by choosing an answer of the hash function. -/

set_option linter.unusedSectionVars false

namespace Zksk

open Spec

variable {E : Type} [AddCommGroup E] [DecidableEq E]

theorem encode_ne_nil {env : Env E} (henv : Readable env) (v : Val E) : env.encode v ≠ [] := by
  intro h
  have h1 := (henv.values v (.int 0) (env.encode (.int 0)) [] (by rw [h]; simp)).1
  have h2 := (henv.values v (.int 1) (env.encode (.int 1)) [] (by rw [h]; simp)).1
  rw [h1] at h2
  simp [content] at h2

/-- The question is not the one whose answer is the hash of the statement. -/
theorem question_ne {env : Env E} (henv : Readable env) {id : PId E} {v com : Val E} {msg : String} {q : List UInt8}
    (hc : ∀ b, com ≠ .bytes b) (h : env.challengeInput id v com msg = .ok q) : env.idBytes id ≠ q := by
  unfold Env.challengeInput at h
  obtain ⟨x, _, h⟩ := bind_ok_iff.mp h
  obtain ⟨y, hy, h⟩ := bind_ok_iff.mp h
  have hy' : y = env.encode com := by
    cases com with
    | bytes b => exact (hc b rfl).elim
    | str s => cases hy
    | _ => exact (Except.ok.inj hy).symm
  injection h with h
  subst h; subst hy'
  intro h
  have := congrArg List.length h
  simp only [List.length_append] at this
  exact encode_ne_nil henv com (List.length_eq_zero_iff.mp (by omega))

/-- The hash of the statement does not change. -/
theorem digest_answering {env : Env E} {id : PId E} {q a : List UInt8} (h : env.idBytes id ≠ q) :
    (rehash env (answering env.sha q a)).digest id = env.digest id := by
  simp [Env.digest, rehash, answering, h]

theorem fiatShamir_answering {env : Env E} {id : PId E} {v com : Val E} {msg : String} {q a : List UInt8}
    (h : env.challengeInput id v com msg = .ok q) :
    (rehash env (answering env.sha q a)).fiatShamir id v com msg = .ok (env.toInt a) := by
  have : (rehash env (answering env.sha q a)).challengeInput id v com msg = .ok q := h
  unfold Env.fiatShamir
  rw [this]
  simp [bind_ok, rehash, answering]

theorem simulate_dlrep_not_bytes {s : DLRep E} {d : Option (Dict Int)} {c : Option Int} {w w' : World} {tr : Sim E}
    (h : DLRep.simulate s d c w = .ok (tr, w')) (b : List UInt8) : tr.commitment ≠ .bytes b := by
  unfold DLRep.simulate at h
  obtain ⟨_, _, _, h⟩ := pm_bind.mp h
  obtain ⟨c', _, _, h⟩ := pm_bind.mp h
  rw [pm_getStore_bind, pm_liftE_bind_iff] at h
  obtain ⟨rs, _, h⟩ := h
  rw [pm_liftE_bind_iff] at h
  obtain ⟨com, h1, h⟩ := h
  rw [pm_pure_iff] at h
  simp only [Prod.mk.injEq] at h
  rw [← h.1]
  unfold DLRep.recompute at h1
  obtain ⟨_, _, h1⟩ := bind_ok_iff.mp h1
  obtain ⟨_, _, h1⟩ := bind_ok_iff.mp h1
  obtain ⟨_, _, h1⟩ := bind_ok_iff.mp h1
  injection h1 with h1
  simp [← h1]

theorem simulate_not_bytes {L : Type} [StmtOps E L]
    (hl : ∀ (l : L) d c w w' (tr : Sim E), StmtOps.simulate l d c w = .ok (tr, w') → ∀ b, tr.commitment ≠ .bytes b)
    {t : Tree L} {d : Option (Dict Int)} {c : Option Int} {w w' : World} {tr : Sim E}
    (h : Tree.simulate t d c w = .ok (tr, w')) (b : List UInt8) : tr.commitment ≠ .bytes b := by
  cases t with
  | leaf l =>
    unfold Tree.simulate at h
    exact hl _ _ _ _ _ _ h b
  | and _ _ =>
    unfold Tree.simulate at h
    obtain ⟨_, _, _, h⟩ := pm_bind.mp h
    obtain ⟨_, _, _, h⟩ := pm_bind.mp h
    obtain ⟨_, _, _, h⟩ := pm_bind.mp h
    rw [pm_pure_iff] at h
    simp only [Prod.mk.injEq] at h
    rw [← h.1]; simp
  | or _ _ =>
    unfold Tree.simulate at h
    obtain ⟨_, _, _, h⟩ := pm_bind.mp h
    obtain ⟨_, _, _, h⟩ := pm_bind.mp h
    rw [pm_pure_iff] at h
    simp only [Prod.mk.injEq] at h
    rw [← h.1]; simp

theorem simulate_core_not_bytes {t : Core E} {d : Option (Dict Int)} {c : Option Int} {w w' : World} {tr : Sim E}
    (h : Tree.simulate t d c w = .ok (tr, w')) (b : List UInt8) : tr.commitment ≠ .bytes b :=
  simulate_not_bytes (fun _ _ _ _ _ _ h => simulate_dlrep_not_bytes h) h b

theorem simulate_stmt_not_bytes {t : Stmt E} {d : Option (Dict Int)} {c : Option Int} {w w' : World} {tr : Sim E}
    (h : Tree.simulate t d c w = .ok (tr, w')) (b : List UInt8) : tr.commitment ≠ .bytes b := by
  refine simulate_not_bytes (fun l d c w w' tr h => ?_) h b
  cases l with
  | dlrep s => exact simulate_dlrep_not_bytes h
  | ext s =>
    change Ext.simulate s d c w = _ at h
    unfold Ext.simulate at h
    rw [pm_liftE_bind_iff] at h
    obtain ⟨k, _, h⟩ := h
    obtain ⟨tr', w1, h1, h⟩ := pm_bind.mp h
    rw [pm_pure_iff] at h
    simp only [Prod.mk.injEq] at h
    intro b
    rw [← h.1]
    exact simulate_core_not_bytes h1 b

theorem simView_not_bytes {t : Stmt E} {c : Int} {w w' : World} {tr : Sim E} {id : PId E}
    (h : simView t c w = .ok ((tr, id), w')) (b : List UInt8) : tr.commitment ≠ .bytes b := by
  unfold simView at h
  obtain ⟨t1, w1, _, h⟩ := pm_bind.mp h
  obtain ⟨tr', w2, h2, h⟩ := pm_bind.mp h
  rw [pm_getStore_bind, pm_liftE_bind_iff] at h
  obtain ⟨id', _, h⟩ := h
  rw [pm_pure_iff] at h
  simp only [Prod.mk.injEq] at h
  obtain ⟨⟨rfl, _⟩, _⟩ := h
  exact simulate_stmt_not_bytes h2 b

/-- `programmed` in terms of what `simulate()` does. -/
theorem programmed_view {env : Env E} {t : Stmt E} {f : Val E → Val E} {a : List UInt8} {msg : String} {w w' : World}
    {nizk : NIZK E} {q : List UInt8} :
    (∃ t', programmed env t f a msg w = .ok ((nizk, q, t'), w')) ↔
    ∃ tr id, simView t (env.toInt a) w = .ok ((tr, id), w') ∧
      nizk = ⟨tr.challenge, tr.responses, f tr.precommitment, env.digest id⟩ ∧
      env.challengeInput id (f tr.precommitment) tr.commitment msg = .ok q := by
  unfold programmed simulateTop simView
  constructor
  · rintro ⟨t', h⟩
    obtain ⟨⟨tr, hh, t1⟩, w1, h1, h⟩ := pm_bind.mp h
    obtain ⟨t2, w2, h2, h1⟩ := pm_bind.mp h1
    obtain ⟨tr', w3, h3, h1⟩ := pm_bind.mp h1
    rw [pm_getStore_bind, pm_liftE_bind_iff] at h1
    obtain ⟨id, h4, h1⟩ := h1
    rw [pm_pure_iff] at h1
    simp only [Prod.mk.injEq] at h1
    obtain ⟨⟨rfl, rfl, rfl⟩, rfl⟩ := h1
    simp only at h
    rw [pm_getStore_bind, h4, pm_liftE_bind, pm_liftE_bind_iff] at h
    obtain ⟨q', h5, h⟩ := h
    rw [pm_pure_iff] at h
    simp only [Prod.mk.injEq] at h
    obtain ⟨⟨rfl, rfl, rfl⟩, rfl⟩ := h
    refine ⟨_, id, ?_, rfl, h5⟩
    rw [pm_bind_eq h2, pm_bind_eq h3, pm_getStore_bind, h4, pm_liftE_bind]
    rfl
  · rintro ⟨tr, id, h, rfl, h5⟩
    obtain ⟨t1, w2, h2, h⟩ := pm_bind.mp h
    obtain ⟨tr', w3, h3, h⟩ := pm_bind.mp h
    rw [pm_getStore_bind, pm_liftE_bind_iff] at h
    obtain ⟨id', h4, h⟩ := h
    rw [pm_pure_iff] at h
    simp only [Prod.mk.injEq] at h
    obtain ⟨⟨rfl, rfl⟩, rfl⟩ := h
    refine ⟨t1, ?_⟩
    have : (do
        let t1 ← Tree.prepareSim (Tree.setSimulated true t)
        let tr ← Tree.simulate t1 none (some (env.toInt a))
        let σ ← getStore
        let id ← liftE (Tree.proofId σ t1)
        pure (tr, env.digest id, t1) : PM (Sim E × List UInt8 × Stmt E)) w = .ok ((tr', env.digest id', t1), w3) := by
      rw [pm_bind_eq h2, pm_bind_eq h3, pm_getStore_bind, h4, pm_liftE_bind]
      rfl
    rw [pm_bind_eq this]
    simp only
    rw [pm_getStore_bind, h4, pm_liftE_bind, h5, pm_liftE_bind]
    rfl

theorem proofId_flag (σ : Store) (t : Core E) : Tree.proofId σ (Tree.setSimulated true t) = Tree.proofId σ t := by
  have hb : Tree.blank (Tree.setSimulated true t) = Tree.blank t := by cases t <;> rfl
  refine (Tree.proofId_eq_iff (skel_core _) (skel_core _) (secretVars_core _) (secretVars_core _)).mpr
    ⟨(shape_blank _ _ hb).1, ?_⟩
  have h2 : coreVars (Tree.setSimulated true t) = coreVars t := (shape_blank _ _ hb).2
  rw [h2]
  exact (seesSame_refl σ (secrets t)).1

/-- `programmed` in terms of what an observer of a simulated run sees. -/
theorem programmed_run {env : Env E} {t : Core E} {f : Val E → Val E} {a : List UInt8} {msg : String} {w w' : World}
    {nizk : NIZK E} {q : List UInt8} :
    (∃ t', programmed env t f a msg w = .ok ((nizk, q, t'), w')) ↔
    ∃ v T id, simulatedRun env t (env.toInt a) w = .ok ((v, T), w') ∧ Tree.proofId w'.store t = .ok id ∧
      nizk = ⟨T.challenge, T.responses, f v, T.hash⟩ ∧
      env.challengeInput id (f v) T.commitment msg = .ok q := by
  have key : ∀ tr h t1 w1, simulateTop env t (some (env.toInt a)) w = .ok ((tr, h, t1), w1) →
      t1 = Tree.setSimulated true t := by
    intro tr h t1 w1 h1
    unfold simulateTop at h1
    rw [pm_bind_eq (prepareSim_core _ _)] at h1
    obtain ⟨tr', w3, h3, h1⟩ := pm_bind.mp h1
    rw [pm_getStore_bind, pm_liftE_bind_iff] at h1
    obtain ⟨id, h4, h1⟩ := h1
    rw [pm_pure_iff] at h1
    simp only [Prod.mk.injEq] at h1
    exact h1.1.2.2.symm
  unfold programmed simulatedRun
  constructor
  · rintro ⟨t', h⟩
    obtain ⟨⟨tr, hh, t1⟩, w1, h1, h⟩ := pm_bind.mp h
    obtain rfl := key _ _ _ _ h1
    simp only at h
    rw [pm_getStore_bind, pm_liftE_bind_iff] at h
    obtain ⟨id, h4, h⟩ := h
    rw [pm_liftE_bind_iff] at h
    obtain ⟨q', h5, h⟩ := h
    rw [pm_pure_iff] at h
    simp only [Prod.mk.injEq] at h
    obtain ⟨⟨rfl, rfl, rfl⟩, rfl⟩ := h
    exact ⟨_, _, id, by rw [pm_bind_eq h1]; rfl, by rw [← proofId_flag]; exact h4, rfl, h5⟩
  · rintro ⟨v, T, id, h, h4, rfl, h5⟩
    obtain ⟨⟨tr, hh, t1⟩, w1, h1, h⟩ := pm_bind.mp h
    obtain rfl := key _ _ _ _ h1
    rw [pm_pure_iff] at h
    simp only [Prod.mk.injEq] at h
    obtain ⟨⟨rfl, rfl⟩, rfl⟩ := h
    refine ⟨Tree.setSimulated true t, ?_⟩
    rw [pm_bind_eq h1]
    simp only
    rw [pm_getStore_bind, proofId_flag, h4, pm_liftE_bind, h5, pm_liftE_bind]
    rfl

/-- The hash function enters simulated runs only by the statement hash. -/
theorem simulatedRun_env {env : Env E} {t : Core E} {c : Int} {w w' : World} {v : Val E} {T : Transcript E}
    (h : simulatedRun env t c w = .ok ((v, T), w')) : ∃ id, Tree.proofId w'.store t = .ok id ∧
      T.hash = env.digest id ∧ ∀ env' : Env E, simulatedRun env' t c w = .ok ((v, { T with hash := env'.digest id }), w') := by
  unfold simulatedRun simulateTop at h
  obtain ⟨⟨tr, hh, t1⟩, w1, h1, h⟩ := pm_bind.mp h
  rw [pm_bind_eq (prepareSim_core _ _)] at h1
  obtain ⟨tr', w3, h3, h1⟩ := pm_bind.mp h1
  rw [pm_getStore_bind, pm_liftE_bind_iff] at h1
  obtain ⟨id, h4, h1⟩ := h1
  rw [pm_pure_iff] at h1 h
  simp only [Prod.mk.injEq] at h1 h
  obtain ⟨⟨rfl, rfl, rfl⟩, rfl⟩ := h1
  obtain ⟨⟨rfl, rfl⟩, rfl⟩ := h
  refine ⟨id, by rw [← proofId_flag]; exact h4, rfl, fun env' => ?_⟩
  have h5 : simulateTop env' t (some c) w = .ok ((tr', env'.digest id, Tree.setSimulated true t), w3) := by
    unfold simulateTop
    rw [pm_bind_eq (prepareSim_core _ _), pm_bind_eq h3, pm_getStore_bind, h4, pm_liftE_bind]
    rfl
  unfold simulatedRun
  rw [pm_bind_eq h5]
  rfl

theorem simulatedRun_not_bytes {env : Env E} {t : Core E} {c : Int} {w w' : World} {v : Val E} {T : Transcript E}
    (h : simulatedRun env t c w = .ok ((v, T), w')) (b : List UInt8) : T.commitment ≠ .bytes b := by
  unfold simulatedRun simulateTop at h
  obtain ⟨⟨tr, hh, t1⟩, w1, h1, h⟩ := pm_bind.mp h
  obtain ⟨t2, w2, _, h1⟩ := pm_bind.mp h1
  obtain ⟨tr', w3, h3, h1⟩ := pm_bind.mp h1
  rw [pm_getStore_bind, pm_liftE_bind_iff] at h1
  obtain ⟨id, h4, h1⟩ := h1
  rw [pm_pure_iff] at h1 h
  simp only [Prod.mk.injEq] at h1 h
  obtain ⟨⟨rfl, rfl, rfl⟩, rfl⟩ := h1
  obtain ⟨⟨_, rfl⟩, _⟩ := h
  exact simulate_core_not_bytes h3 b

end Zksk
