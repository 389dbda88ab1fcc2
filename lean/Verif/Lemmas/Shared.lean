import Verif.SpecShared
import Verif.Lemmas.NotEqualRun

/-! # Lemmas on conversations that share one extended statement object -/

namespace Zksk

open Spec

variable {E : Type} [AddCommGroup E] [DecidableEq E]

namespace Shared

theorem fullConstruct_rest (σ : Store) (o : Objs E) (v : Val E) :
    (fullConstruct σ o v).2.provers = o.provers ∧ (fullConstruct σ o v).2.verifiers = o.verifiers := by
  unfold fullConstruct
  split <;> exact ⟨rfl, rfl⟩

/-- A call that stores no precommitment leaves the statement object alone. -/
theorem step_stmt (env : Env E) (o : Objs E) (w : World) {k : Call E} (hk : ¬ Replaces k) :
    (step env o w k).2.1.stmt = o.stmt := by
  cases k with
  | getProver d => rfl
  | precommit i => exact absurd trivial hk
  | commit i =>
    simp only [step]
    cases o.provers[i]? with
    | none => rfl
    | some p =>
      simp only [commit]
      split
      · rfl
      · split <;> rfl
  | respond i c =>
    simp only [step]
    cases o.provers[i]? with
    | none => rfl
    | some p =>
      simp only [respond]
      split <;> rfl
  | getVerifier => rfl
  | process j v => exact absurd trivial hk
  | challenge j h com =>
    simp only [step]
    cases o.verifiers[j]? with
    | none => rfl
    | some x =>
      simp only [challenge]
      split <;> rfl
  | verify j r =>
    simp only [step]
    cases o.verifiers[j]? with
    | none => rfl
    | some x =>
      simp only [verifyCall]
      split
      · rfl
      · split <;> rfl
  | prove d m => exact absurd trivial hk
  | check n m => exact absurd trivial hk

theorem getElem?_app {α : Type} {l l' : List α} {j : Nat} {x : α} (h : l[j]? = some x) : (l ++ l')[j]? = some x := by
  rw [List.getElem?_append_left (List.getElem?_eq_some_iff.mp h).1, h]

theorem getElem?_set' {α : Type} {l : List α} {i j : Nat} {x y : α} (h : l[j]? = some x) (hij : i ≠ j) :
    (l.set i y)[j]? = some x := by
  rw [List.getElem?_set_ne hij, h]

/-- A call on something else leaves a verifier alone. -/
theorem step_verifier (env : Env E) (o : Objs E) (w : World) {k : Call E} {j : Nat} {x : VerifierObj E}
    (hx : o.verifiers[j]? = some x) (hk : ¬ OnVerifier j k) :
    (step env o w k).2.1.verifiers[j]? = some x := by
  cases k with
  | getProver d => exact hx
  | precommit i =>
    simp only [step]
    cases o.provers[i]? with
    | none => exact hx
    | some p =>
      simp only [precommit]
      split
      · exact hx
      · rename_i v w1 _
        have := fullConstruct_rest w1.store o v
        split
        · rename_i h; rw [h] at this; rw [this.2]; exact hx
        · rename_i h; rw [h] at this
          split
          · rw [this.2]; exact hx
          · rw [this.2]; exact hx
  | commit i =>
    simp only [step]
    cases o.provers[i]? with
    | none => exact hx
    | some p =>
      simp only [commit]
      split
      · exact hx
      · split <;> exact hx
  | respond i c =>
    simp only [step]
    cases o.provers[i]? with
    | none => exact hx
    | some p =>
      simp only [respond]
      split <;> exact hx
  | getVerifier => exact getElem?_app hx
  | process i v =>
    simp only [step]
    cases o.verifiers[i]? with
    | none => exact hx
    | some y =>
      simp only [process]
      have := fullConstruct_rest w.store o v
      split
      · rename_i h; rw [h] at this; rw [this.2]; exact hx
      · rename_i h; rw [h] at this
        exact getElem?_set' (by rw [this.2]; exact hx) hk
  | challenge i h com =>
    simp only [step]
    cases o.verifiers[i]? with
    | none => exact hx
    | some y =>
      simp only [challenge]
      split <;> exact getElem?_set' hx hk
  | verify i r =>
    simp only [step]
    cases o.verifiers[i]? with
    | none => exact hx
    | some y =>
      simp only [verifyCall]
      split
      · exact hx
      · split <;> exact hx
  | prove d m =>
    simp only [step, proveCall]
    split
    · exact hx
    · split <;> exact hx
  | check n m =>
    simp only [step, checkCall]
    split
    · exact hx
    · rw [(fullConstruct_rest _ _ _).2]; exact hx

/-- A call on something else leaves a prover alone. -/
theorem step_prover (env : Env E) (o : Objs E) (w : World) {k : Call E} {i : Nat} {p : ProverObj E}
    (hp : o.provers[i]? = some p) (hk : ¬ OnProver i k) :
    (step env o w k).2.1.provers[i]? = some p := by
  cases k with
  | getProver d => exact getElem?_app hp
  | precommit j =>
    simp only [step]
    cases o.provers[j]? with
    | none => exact hp
    | some q =>
      simp only [precommit]
      split
      · exact hp
      · rename_i v w1 _
        have := fullConstruct_rest w1.store o v
        split
        · rename_i h; rw [h] at this; rw [this.1]; exact hp
        · rename_i h; rw [h] at this
          split
          · rw [this.1]; exact hp
          · rw [this.1]; exact getElem?_set' hp hk
  | commit j =>
    simp only [step]
    cases o.provers[j]? with
    | none => exact hp
    | some q =>
      simp only [commit]
      split
      · exact hp
      · split
        · exact hp
        · exact getElem?_set' hp hk
  | respond j c =>
    simp only [step]
    cases o.provers[j]? with
    | none => exact hp
    | some q =>
      simp only [respond]
      split <;> exact hp
  | getVerifier => exact hp
  | process j v =>
    simp only [step]
    cases o.verifiers[j]? with
    | none => exact hp
    | some y =>
      simp only [process]
      have := fullConstruct_rest w.store o v
      split
      · rename_i h; rw [h] at this; rw [this.1]; exact hp
      · rename_i h; rw [h] at this
        rw [this.1]; exact hp
  | challenge j h com =>
    simp only [step]
    cases o.verifiers[j]? with
    | none => exact hp
    | some y =>
      simp only [challenge]
      split <;> exact hp
  | verify j r =>
    simp only [step]
    cases o.verifiers[j]? with
    | none => exact hp
    | some y =>
      simp only [verifyCall]
      split
      · exact hp
      · split <;> exact hp
  | prove d m =>
    simp only [step, proveCall]
    split
    · exact hp
    · split <;> exact hp
  | check n m =>
    simp only [step, checkCall]
    split
    · exact hp
    · rw [(fullConstruct_rest _ _ _).1]; exact hp

theorem run_cons (env : Env E) (k : Call E) (ks : List (Call E)) (o : Objs E) (w : World) :
    run env (k :: ks) o w = run env ks (step env o w k).2.1 (step env o w k).2.2 := rfl

theorem run_stmt (env : Env E) : ∀ (ks : List (Call E)) (o : Objs E) (w : World), (∀ k ∈ ks, ¬ Replaces k) →
    (run env ks o w).1.stmt = o.stmt
  | [], _, _, _ => rfl
  | k :: ks, o, w, h => by
    rw [run_cons, run_stmt env ks _ _ fun k hk => h k (List.mem_cons_of_mem _ hk),
      step_stmt env o w (h k (List.mem_cons_self ..))]

theorem run_verifier (env : Env E) {j : Nat} {x : VerifierObj E} : ∀ (ks : List (Call E)) (o : Objs E) (w : World),
    o.verifiers[j]? = some x → (∀ k ∈ ks, ¬ OnVerifier j k) → (run env ks o w).1.verifiers[j]? = some x
  | [], _, _, hx, _ => hx
  | k :: ks, o, w, hx, h => by
    rw [run_cons]
    exact run_verifier env ks _ _ (step_verifier env o w hx (h k (List.mem_cons_self ..)))
      fun k hk => h k (List.mem_cons_of_mem _ hk)

theorem run_prover (env : Env E) {i : Nat} {p : ProverObj E} : ∀ (ks : List (Call E)) (o : Objs E) (w : World),
    o.provers[i]? = some p → (∀ k ∈ ks, ¬ OnProver i k) → (run env ks o w).1.provers[i]? = some p
  | [], _, _, hp, _ => hp
  | k :: ks, o, w, hp, h => by
    rw [run_cons]
    exact run_prover env ks _ _ (step_prover env o w hp (h k (List.mem_cons_self ..)))
      fun k hk => h k (List.mem_cons_of_mem _ hk)

/-! ### What a conversation sees -/

/-- Processing a precommitment with a statement object of one's own. -/
theorem own_process {s : Ext E} {σ : Store} {v : Val E} {t1 : Stmt E}
    (h : Tree.process σ (Tree.freshVerifier (.leaf (.ext (own s)))) v = .ok t1) :
    ∃ t, s.spec.construct σ v = .ok t ∧
      t1 = .leaf (.ext { s with precommitment := v, constructed := some t, verifier := some (Tree.freshVerifier t) }) := by
  cases hc : s.spec.construct σ v with
  | error e =>
    have : Tree.process σ (Tree.freshVerifier (.leaf (.ext (own s)) : Stmt E)) v = .error e := by
      simp only [Tree.process, Tree.freshVerifier, StmtOps.process, StmtOps.freshVerifier, Ext.process,
        Ext.fullConstruct, own, hc, Except.map]
      rfl
    rw [this] at h; cases h
  | ok t =>
    refine ⟨t, rfl, ?_⟩
    have : Tree.process σ (Tree.freshVerifier (.leaf (.ext (own s)) : Stmt E)) v =
        .ok (.leaf (.ext { s with precommitment := v, constructed := some t, verifier := some (Tree.freshVerifier t) })) := by
      simp only [Tree.process, Tree.freshVerifier, StmtOps.process, StmtOps.freshVerifier, Ext.process,
        Ext.fullConstruct, own, hc, bind_ok, Except.map, Option.map]
    rw [this] at h; cases h; rfl

theorem step_process {env : Env E} {o : Objs E} {w : World} {j : Nat} {x : VerifierObj E} {v : Val E} {t : Core E}
    (hx : o.verifiers[j]? = some x) (hc : o.stmt.spec.construct w.store v = .ok t) :
    step env o w (.process j v) = (.ok .unit,
      { stmt := { o.stmt with precommitment := v, constructed := some t }, provers := o.provers,
        verifiers := o.verifiers.set j { x with constructed := some (Tree.freshVerifier t) } }, w) := by
  simp only [step, hx, process, fullConstruct, hc]

theorem set_self {α : Type} {l : List α} {j : Nat} {x y : α} (h : l[j]? = some x) : (l.set j y)[j]? = some y := by
  rw [List.getElem?_set_self (List.getElem?_eq_some_iff.mp h).1]

theorem pm_bind_error {α β : Type} {x : PM α} {f : α → PM β} {w : World} {e : Err} (h : x w = .error e) :
    (x >>= f) w = .error e := by
  show (StateT.bind x f w) = _
  unfold StateT.bind
  rw [h]; rfl

/-- A prover object with a statement object of its own. -/
def ownProver (s : Ext E) (d : Dict Int) : StmtProver E := .leaf (.ext ⟨own s, d, none⟩)

theorem step_precommit {env : Env E} {o : Objs E} {w w1 : World} {i : Nat} {p : ProverObj E} {v : Val E}
    {q1 : StmtProver E} (hp : o.provers[i]? = some p)
    (h : PTree.precommit (.leaf (.ext ⟨own o.stmt, p.secretValues, none⟩) : StmtProver E) w = .ok ((v, q1), w1)) :
    ∃ cp t', q1 = .leaf (.ext ⟨{ own o.stmt with precommitment := v, constructed := some t' }, p.secretValues, cp⟩) ∧
      step env o w (.precommit i) = (.ok (.val v),
        { stmt := { o.stmt with precommitment := v, constructed := some t' },
          provers := o.provers.set i ⟨p.secretValues, cp⟩, verifiers := o.verifiers }, w1) := by
  unfold PTree.precommit at h
  obtain ⟨⟨v1, l1⟩, w2, h1, h⟩ := pm_bind.mp h
  rw [pm_pure_iff] at h
  cases h
  obtain ⟨⟨v2, e1⟩, w3, h2, h⟩ := pm_bind.mp (show ((ExtProver.precommit ⟨own o.stmt, p.secretValues, none⟩ >>=
    fun a => (pure (a.1, LeafProver.ext a.2) : PM (Val E × LeafProver E))) w) = _ from h1)
  rw [pm_pure_iff] at h
  cases h
  unfold ExtProver.precommit at h2
  obtain ⟨v3, w4, h3, h2⟩ := pm_bind.mp h2
  rw [pm_getStore_bind] at h2
  obtain ⟨s', h4, h2⟩ := pm_liftE_bind_iff.mp h2
  obtain ⟨t, h5, h2⟩ := pm_liftE_bind_iff.mp h2
  obtain ⟨⟨cp, t'⟩, w5, h6, h2⟩ := pm_bind.mp h2
  rw [pm_pure_iff] at h2
  cases h2
  obtain ⟨t0, h7, h4⟩ := bind_ok_iff.mp (show (o.stmt.spec.construct w4.store _ >>= _) = _ from h4)
  cases h4
  cases h5
  refine ⟨cp, t', rfl, ?_⟩
  simp only [step, hp, precommit, show o.stmt.spec.precommit w = _ from h3, fullConstruct, h7, h6]

theorem step_commit {env : Env E} {o : Objs E} {w : World} {i : Nat} {p : ProverObj E} {s : Ext E}
    (hp : o.provers[i]? = some p) (hs : own s = own o.stmt) (hv : s.precommitment = o.stmt.precommitment)
    (hc : s.constructed = o.stmt.constructed) :
    (step env o w (.commit i)).1 =
      seen (PTree.commit env (.leaf (.ext ⟨s, p.secretValues, p.constructed⟩) : StmtProver E)) w
        (fun a => .commitment a.1.1 a.1.2) ∧
    ∀ h com q2 w1, PTree.commit env (.leaf (.ext ⟨s, p.secretValues, p.constructed⟩) : StmtProver E) w =
        .ok (((h, com), q2), w1) →
      ∃ cp, q2 = .leaf (.ext ⟨s, p.secretValues, cp⟩) ∧
        step env o w (.commit i) = (.ok (.commitment h com),
          { o with provers := o.provers.set i ⟨p.secretValues, cp⟩ }, w1) := by
  obtain ⟨s1, s2, s3, s4, s5⟩ := s
  obtain ⟨⟨o1, o2, o3, o4, o5⟩, pr, ve⟩ := o
  simp only [own, Ext.mk.injEq, and_true] at hs hv hc
  obtain ⟨rfl, rfl⟩ := hs
  subst hv hc
  cases hid : Tree.proofId w.store (.leaf (.ext ⟨s1, s2, s3, s4, s5⟩) : Stmt E) with
  | error e =>
    have hrun : PTree.commit env (.leaf (.ext ⟨⟨s1, s2, s3, s4, s5⟩, p.secretValues, p.constructed⟩) : StmtProver E) w =
        .error e := by
      unfold PTree.commit
      rw [pm_getStore_bind]
      refine pm_bind_error ?_
      rw [show PTree.stmtOf (.leaf (.ext ⟨⟨s1, s2, s3, s4, s5⟩, p.secretValues, p.constructed⟩) : StmtProver E) =
        (.leaf (.ext ⟨s1, s2, s3, s4, s5⟩) : Stmt E) by unfold PTree.stmtOf; rfl, hid]
      rfl
    refine ⟨?_, fun _ _ _ _ h => by rw [hrun] at h; cases h⟩
    rw [seen, hrun]
    simp only [step, hp, commit, show Tree.proofId w.store (.leaf (.ext ⟨s1, s2, s3, s4, o5⟩) : Stmt E) = _ from hid]
    rfl
  | ok id =>
    have hstep : step env ⟨⟨s1, s2, s3, s4, o5⟩, pr, ve⟩ w (.commit i) =
        match (Objs.prover ⟨⟨s1, s2, s3, s4, o5⟩, pr, ve⟩ p).internalCommit none w with
        | .error e => (.error e, ⟨⟨s1, s2, s3, s4, o5⟩, pr, ve⟩, w)
        | .ok ((com, p'), w1) => (.ok (.commitment (env.digest id) com),
            ⟨⟨s1, s2, s3, s4, o5⟩, pr.set i { p with constructed := p'.constructed }, ve⟩, w1) := by
      simp only [step, hp, commit, show Tree.proofId w.store (.leaf (.ext ⟨s1, s2, s3, s4, o5⟩) : Stmt E) = _ from hid]
      rfl
    have hrun : PTree.commit env (.leaf (.ext ⟨⟨s1, s2, s3, s4, s5⟩, p.secretValues, p.constructed⟩) : StmtProver E) w =
        (PTree.internalCommit (.leaf (.ext ⟨⟨s1, s2, s3, s4, s5⟩, p.secretValues, p.constructed⟩) : StmtProver E) none >>= fun a =>
          pure ((env.digest id, a.1), a.2)) w := by
      unfold PTree.commit
      rw [pm_getStore_bind, show PTree.stmtOf (.leaf (.ext ⟨⟨s1, s2, s3, s4, s5⟩, p.secretValues, p.constructed⟩) : StmtProver E) =
        (.leaf (.ext ⟨s1, s2, s3, s4, s5⟩) : Stmt E) by unfold PTree.stmtOf; rfl, hid, pm_liftE_bind]
    have hint : PTree.internalCommit (.leaf (.ext ⟨⟨s1, s2, s3, s4, s5⟩, p.secretValues, p.constructed⟩) : StmtProver E) none =
        ((ExtProver.internalCommit ⟨⟨s1, s2, s3, s4, s5⟩, p.secretValues, p.constructed⟩ none >>= fun a =>
          (pure (a.1, LeafProver.ext a.2) : PM (Val E × LeafProver E))) >>= fun a =>
          pure (a.1, .leaf a.2)) := by
      unfold PTree.internalCommit
      rfl
    have hfail : ∀ e, ExtProver.internalCommit ⟨⟨s1, s2, s3, s4, s5⟩, p.secretValues, p.constructed⟩ none w = .error e →
        PTree.commit env (.leaf (.ext ⟨⟨s1, s2, s3, s4, s5⟩, p.secretValues, p.constructed⟩) : StmtProver E) w = .error e :=
      fun e he => by rw [hrun, hint]; exact pm_bind_error (pm_bind_error (pm_bind_error he))
    have hgood : ∀ com q w1, ExtProver.internalCommit ⟨⟨s1, s2, s3, s4, s5⟩, p.secretValues, p.constructed⟩ none w =
          .ok ((com, q), w1) →
        PTree.commit env (.leaf (.ext ⟨⟨s1, s2, s3, s4, s5⟩, p.secretValues, p.constructed⟩) : StmtProver E) w =
          .ok (((env.digest id, com), .leaf (.ext q)), w1) :=
      fun com q w1 he => by
        rw [hrun, hint]
        rw [pm_bind_eq (pm_bind_eq (pm_bind_eq he))]; rfl
    rw [hstep]
    simp only [Objs.prover] at hfail hgood ⊢
    cases s4 with
    | none =>
      have h1 : ∀ z, ExtProver.internalCommit (⟨⟨s1, s2, s3, none, z⟩, p.secretValues, p.constructed⟩ : ExtProver E) none w =
        .error .statementSpec := fun _ => rfl
      rw [h1, seen, hfail _ (h1 _)]
      exact ⟨rfl, fun _ _ _ _ h => by cases h⟩
    | some t =>
      cases hpc : p.constructed with
      | none =>
        rw [hpc] at hfail
        have h1 : ∀ z, ExtProver.internalCommit (⟨⟨s1, s2, s3, some t, z⟩, p.secretValues, none⟩ : ExtProver E) none w =
          .error .attributeError := fun _ => rfl
        rw [h1, seen, hfail _ (h1 _)]
        exact ⟨rfl, fun _ _ _ _ h => by cases h⟩
      | some cp =>
        rw [hpc] at hfail hgood
        have h1 : ∀ z, ExtProver.internalCommit (⟨⟨s1, s2, s3, some t, z⟩, p.secretValues, some cp⟩ : ExtProver E) none w =
          (PTree.internalCommit cp none >>= fun a =>
            (pure (a.1, ⟨⟨s1, s2, s3, some t, z⟩, p.secretValues, some a.2⟩) : PM (Val E × ExtProver E))) w := fun _ => rfl
        cases hin : PTree.internalCommit cp none w with
        | error e =>
          have h2 : ∀ z, ExtProver.internalCommit (⟨⟨s1, s2, s3, some t, z⟩, p.secretValues, some cp⟩ : ExtProver E) none w =
            .error e := fun z => by rw [h1]; exact pm_bind_error hin
          rw [h2, seen, hfail _ (h2 _)]
          exact ⟨rfl, fun _ _ _ _ h => by cases h⟩
        | ok a =>
          obtain ⟨⟨com, cp'⟩, w1⟩ := a
          have h2 : ∀ z, ExtProver.internalCommit (⟨⟨s1, s2, s3, some t, z⟩, p.secretValues, some cp⟩ : ExtProver E) none w =
            .ok ((com, ⟨⟨s1, s2, s3, some t, z⟩, p.secretValues, some cp'⟩), w1) := fun z => by
              rw [h1, pm_bind_eq hin]; rfl
          rw [h2, seen, hgood _ _ _ (h2 _)]
          refine ⟨rfl, fun _ _ _ _ h => ?_⟩
          cases h
          exact ⟨some cp', rfl, rfl⟩

/-- `stmt.prove` of an extended statement, without the statement object. -/
def proveCore (env : Env E) (sp : ExtSpec E) (d : Dict Int) (message : String) : PM (NIZK E × Val E × Core E) := do
  let σ ← getStore
  setStore (updateSecretValues σ d)
  let v ← sp.precommit
  let σ ← getStore
  let t ← liftE (sp.construct σ v)
  let (cp, t') ← (PTree.getProver t d : PM (Option (CoreProver E) × Core E))
  match cp with
  | none => raise .attributeError
  | some cp => do
    let (com, cp') ← PTree.internalCommit cp none
    let σ ← getStore
    let id ← liftE (Tree.proofId σ (.leaf (.ext ⟨sp, false, v, some t', none⟩) : Stmt E))
    let c ← liftE (env.fiatShamir id v com message)
    let r ← PTree.computeResponse cp' c
    pure ({ challenge := c, responses := r, precommitment := v, stmtHash := env.digest id }, v, t')

theorem liftE_map {α β : Type} (f : α → β) (x : Except Err α) : liftE (do let a ← x; .ok (f a)) = (do let a ← liftE x; pure (f a)) := by
  cases x <;> rfl

theorem prove_leaf (env : Env E) (s : Ext E) (d : Dict Int) (message : String) :
    prove (LeafProver E) env (.leaf (.ext s) : Stmt E) d message =
      (do
        let a ← proveCore env s.spec d message
        pure (a.1, .leaf (.ext { s with precommitment := a.2.1, constructed := some a.2.2 }))) := by
  have h1 : ∀ s : Ext E, PTree.getProver (.leaf (.ext s) : Stmt E) d =
      (do let σ ← getStore; setStore (updateSecretValues σ d); pure (some (.leaf (.ext ⟨s, d, none⟩) : StmtProver E), .leaf (.ext s))) := by
    intro s
    unfold PTree.getProver
    rfl
  unfold prove proveCore
  rw [h1]
  simp only [bind_assoc, pure_bind]
  congr 1; funext σ; congr 1; funext _
  unfold PTree.getNizkProof PTree.precommit
  simp only [ProverOps.precommit, ExtProver.precommit, bind_assoc, pure_bind, Ext.fullConstruct, liftE_map]
  congr 1; funext v; congr 1; funext σ1; congr 1; funext t
  simp only [Ext.inner]
  rw [show (liftE (Except.ok t) : PM (Core E)) = pure t from rfl, pure_bind]
  congr 1; funext a
  obtain ⟨cp, t'⟩ := a
  have hint : ∀ q : ExtProver E, PTree.internalCommit (.leaf (.ext q) : StmtProver E) none =
      (do let b ← q.internalCommit none; pure (b.1, .leaf (.ext b.2))) := fun q => by
    unfold PTree.internalCommit
    simp only [ProverOps.internalCommit, bind_assoc, pure_bind]
  rw [hint]
  cases cp with
  | none => rfl
  | some cp =>
    simp only [ExtProver.internalCommit, bind_assoc, pure_bind]
    congr 1

theorem step_prove (env : Env E) (o : Objs E) (w : World) (d : Dict Int) (message : String) :
    (step env o w (.prove d message)).1 =
      seen (prove (LeafProver E) env (.leaf (.ext (own o.stmt)) : Stmt E) d message) w (fun a => .proof a.1) := by
  simp only [step, proveCall, seen]
  rw [prove_leaf, prove_leaf]
  show _ = Except.map _ ((proveCore env o.stmt.spec d message >>= _) w)
  cases h : proveCore env o.stmt.spec d message w with
  | error e => rw [pm_bind_error h, pm_bind_error h]; rfl
  | ok a => rw [pm_bind_eq h, pm_bind_eq h]; rfl

end Shared

namespace NotEqual

/-- A commitment made without any witness. -/
def blindCom (s : NotEqual E) : Val E :=
  .list (.pt s.g.grp.inf :: .pt ⟨s.g.grp, -s.h.val⟩ :: if s.bind then [.pt s.g.grp.inf] else [])

/-- The responses that go with it. -/
def blindResp (s : NotEqual E) (n : Int) : Val E :=
  .list (.list [.int 0, .int 0] :: .list [.int 0, .int 0] :: if s.bind then [.list [.int n]] else [])

/-- A verifier whose statement object has meanwhile received a precommitment made for its challenge. -/
theorem blind_accepted {s : NotEqual E} (hgrp : ∀ p ∈ [s.lhs0, s.lhs1, s.h], p.grp = s.g.grp) {σ σ' : Store} {c u y : Int}
    {v : Pt E} (f : Bool) (hu : (c * u) • s.h.val = s.h.val) (hh : s.h.val ≠ 0)
    (hbind : s.bind = true → s.lhs0.val = y • s.g.val ∧
      σ.key s.x ≠ σ.key s.alpha ∧ σ.key s.x ≠ σ.key s.beta) :
    verifyResponse σ (.leaf (.ext ⟨s.spec, f, .pt (Pt.smul u s.h), some (s.built σ (Pt.smul u s.h)),
      some (Tree.freshVerifier (s.built σ' v))⟩) : Stmt E) s.blindCom c (s.blindResp (c * y)) = .ok true := by
  have g0 : s.lhs0.grp = s.g.grp := hgrp _ (by simp)
  have g1 : s.lhs1.grp = s.g.grp := hgrp _ (by simp)
  have g2 : s.h.grp = s.g.grp := hgrp _ (by simp)
  have hne : u • s.h.val ≠ 0 := fun h => hh (by rw [← hu, mul_smul, h, smul_zero])
  have hval : s.validate (.pt (Pt.smul u s.h)) = .ok () := by
    unfold validate
    rw [if_neg]
    intro h
    simp only [Pt.smul, Val.pt.injEq, Grp.inf, Pt.mk.injEq] at h
    exact hne h.2
  have hrec : Tree.recompute (s.built σ (Pt.smul u s.h)) c (s.blindResp (c * y)) = .ok s.blindCom := by
    have e1 : DLRep.recompute (⟨s.g.grp.inf, [s.g, s.lhs0], [s.alpha, s.beta], knownValues σ [s.alpha, s.beta] [], false⟩ : DLRep E) c
        (.list [.int 0, .int 0]) = .ok (.pt s.g.grp.inf) := by
      simp [DLRep.recompute, Val.elems, Grp.wsum, wsumGo, Val.asInt, bind_ok, Pt.add, Pt.smul, Grp.inf, g0]
    have e2 : DLRep.recompute (⟨Pt.smul u s.h, [s.h, s.lhs1], [s.alpha, s.beta], knownValues σ [s.alpha, s.beta] [], false⟩ : DLRep E) c
        (.list [.int 0, .int 0]) = .ok (.pt ⟨s.g.grp, -s.h.val⟩) := by
      simp [DLRep.recompute, Val.elems, Grp.wsum, wsumGo, Val.asInt, bind_ok, Pt.add, Pt.smul, Grp.inf, g1, g2, ← mul_smul, hu]
    have e3 : s.bind = true → DLRep.recompute (⟨s.lhs0, [s.g], [s.x], knownValues σ [s.x] [], false⟩ : DLRep E) c
        (.list [.int (c * y)]) = .ok (.pt s.g.grp.inf) := fun hb => by
      simp [DLRep.recompute, Val.elems, Grp.wsum, wsumGo, Val.asInt, bind_ok, Pt.add, Pt.smul, Grp.inf, g0, (hbind hb).1, ← mul_smul]
    unfold built blindResp blindCom
    cases hb : s.bind with
    | false =>
      simp only [Tree.recompute, Tree.recomputeAnd, Val.index, StmtOps.recompute, Bool.false_eq_true, if_false,
        bind_ok, e1, e2, List.getElem?_cons_zero, List.getElem?_cons_succ]
    | true =>
      simp only [Tree.recompute, Tree.recomputeAnd, Val.index, StmtOps.recompute, if_true,
        bind_ok, e1, e2, e3 hb, List.getElem?_cons_zero, List.getElem?_cons_succ]
  have hcns : ∃ d, Tree.consistency σ (Tree.freshVerifier (s.built σ' v)) (s.blindResp (c * y)) [] = .ok (true, d) := by
    let ρ : Key → Val E := fun k => if s.bind = true ∧ k = σ.key s.x then .int (c * y) else .int 0
    have ha : ρ (σ.key s.alpha) = .int 0 := if_neg fun h => (hbind h.1).2.1 h.2.symm
    have hbeta : ρ (σ.key s.beta) = .int 0 := if_neg fun h => (hbind h.1).2.2 h.2.symm
    have two : ∀ d, Below σ ρ d → ∃ d', DLRep.consistencyGo σ (.list [.int 0, .int 0] : Val E) [s.alpha, s.beta] 0 d =
        .ok (true, d') ∧ Below σ ρ d' := fun d hd => consistencyGo_of _ 0 d hd fun j z hz => by
      match j with
      | 0 => simp at hz; subst hz; rw [ha]; rfl
      | 1 => simp at hz; subst hz; rw [hbeta]; rfl
      | j + 2 => simp at hz
    obtain ⟨d1, h1, b1⟩ := two [] (by intro z v hz; cases hz)
    obtain ⟨d2, h2, b2⟩ := two d1 b1
    have one : s.bind = true → ∃ d', DLRep.consistencyGo σ (.list [.int (c * y)] : Val E) [s.x] 0 d2 = .ok (true, d') :=
      fun hb => by
        obtain ⟨d', h, _⟩ := consistencyGo_of (r := .list [.int (c * y)]) [s.x] 0 d2 b2 fun j z hz => by
          match j with
          | 0 => simp at hz; subst hz; rw [show ρ (σ.key s.x) = _ from if_pos ⟨hb, rfl⟩]; rfl
          | j + 1 => simp at hz
        exact ⟨d', h⟩
    unfold built blindResp
    cases hb : s.bind with
    | false =>
      refine ⟨d2, ?_⟩
      simp only [Tree.freshVerifier, Tree.freshVerifierL, StmtOps.freshVerifier, Tree.consistency, Tree.consistencyAnd,
        Val.index, StmtOps.consistency, Bool.false_eq_true, if_false, bind_ok, h1, h2, if_true,
        List.getElem?_cons_zero, List.getElem?_cons_succ]
    | true =>
      obtain ⟨d3, h3⟩ := one hb
      refine ⟨d3, ?_⟩
      simp only [Tree.freshVerifier, Tree.freshVerifierL, StmtOps.freshVerifier, Tree.consistency, Tree.consistencyAnd,
        Val.index, StmtOps.consistency, bind_ok, h1, h2, h3, if_true,
        List.getElem?_cons_zero, List.getElem?_cons_succ]
  obtain ⟨d, hd⟩ := hcns
  unfold verifyResponse preVerification
  simp only [Tree.fullValidate, StmtOps.fullValidate, spec, hval, bind_ok, Tree.consistency, StmtOps.consistency,
    Ext.consistency, hd, if_true, Tree.recompute, StmtOps.recompute, Ext.inner, hrec, decide_true]
end NotEqual

namespace Shared

theorem step_challenge {env : Env E} {o : Objs E} {w w1 : World} {j : Nat} {x : VerifierObj E} {h : List UInt8}
    {com : Val E} {c : Int} (hx : o.verifiers[j]? = some x)
    (hc : sendChallenge env w.store (o.verifier x) h w = .ok (c, w1)) :
    step env o w (.challenge j h com) = (.ok (.challenge c),
      { o with verifiers := o.verifiers.set j { x with commitment := some com, challenge := some c } }, w1) := by
  simp only [step, hx, challenge, hc]

theorem step_verify {env : Env E} {o : Objs E} {w : World} {j : Nat} {k : Option (Core E)} {com r : Val E} {c : Int}
    (hx : o.verifiers[j]? = some ⟨k, some com, some c⟩) :
    (step env o w (.verify j r)).1 =
      (verifyResponse w.store (o.verifier ⟨k, some com, some c⟩) com c r).map .verdict := by
  simp only [step, hx, verifyCall]

theorem leaf_id {σ : Store} {s : Ext E} {id : PId E} (h : Tree.proofId σ (.leaf (.ext s) : Stmt E) = .ok id) :
    ∃ i, id = .ext s.spec.cls s.precommitment i := by
  unfold Tree.proofId at h
  obtain ⟨vs, _, h⟩ := bind_ok_iff.mp h
  obtain ⟨sp, fl, v, co, ve⟩ := s
  have h' : Ext.proofId σ (assignSecretIds (vs.map σ.name)) ⟨sp, fl, v, co, ve⟩ = .ok id := by
    rw [← h]; unfold Tree.proofIdWith; rfl
  cases co with
  | none => cases h'
  | some t =>
    obtain ⟨i, _, h'⟩ := bind_ok_iff.mp (show (Tree.proofIdWith _ _ t >>= _) = _ from h')
    cases h'
    exact ⟨i, rfl⟩

theorem fullConstruct_stmt (σ : Store) (o : Objs E) (v : Val E) :
    (fullConstruct σ o v).2.stmt.precommitment = v ∧ (fullConstruct σ o v).2.stmt.spec = o.stmt.spec := by
  unfold fullConstruct
  split <;> exact ⟨rfl, rfl⟩

theorem proveCore_precommitment {env : Env E} {sp : ExtSpec E} {d : Dict Int} {m : String} {w w1 : World}
    {a : NIZK E × Val E × Core E} (h : proveCore env sp d m w = .ok (a, w1)) : a.1.precommitment = a.2.1 := by
  unfold proveCore at h
  rw [pm_getStore_bind, pm_setStore_bind] at h
  obtain ⟨v, w2, _, h⟩ := pm_bind.mp h
  rw [pm_getStore_bind] at h
  obtain ⟨t, _, h⟩ := pm_liftE_bind_iff.mp h
  obtain ⟨⟨cp, t'⟩, w3, _, h⟩ := pm_bind.mp h
  cases cp with
  | none => cases h
  | some cp =>
    obtain ⟨⟨com, cp'⟩, w4, _, h⟩ := pm_bind.mp h
    simp only at h
    rw [pm_getStore_bind] at h
    obtain ⟨id, _, h⟩ := pm_liftE_bind_iff.mp h
    obtain ⟨c, _, h⟩ := pm_liftE_bind_iff.mp h
    obtain ⟨r, w5, _, h⟩ := pm_bind.mp h
    rw [pm_pure_iff] at h
    cases h
    rfl

/-- A call that stores a precommitment leaves it in the statement object. -/
theorem step_stores (env : Env E) (o : Objs E) (w : World) {k : Call E} {v : Val E} (hk : Stores env o w k v) :
    (step env o w k).2.1.stmt.precommitment = v ∧ (step env o w k).2.1.stmt.spec = o.stmt.spec := by
  cases k with
  | getProver d => exact hk.elim
  | commit i => exact hk.elim
  | respond i c => exact hk.elim
  | getVerifier => exact hk.elim
  | challenge j h com => exact hk.elim
  | verify j r => exact hk.elim
  | precommit i =>
    have hk : (step env o w (.precommit i)).1 = .ok (.val v) := hk
    simp only [step] at hk ⊢
    cases hp : o.provers[i]? with
    | none => rw [hp] at hk; cases hk
    | some p =>
      rw [hp] at hk
      simp only [precommit] at hk ⊢
      cases h1 : o.stmt.spec.precommit w with
      | error e => rw [h1] at hk; cases hk
      | ok a =>
        obtain ⟨v1, w1⟩ := a
        rw [h1] at hk
        simp only at hk ⊢
        have hf := fullConstruct_stmt w1.store o v1
        cases h2 : fullConstruct w1.store o v1 with
        | mk x o1 =>
          rw [h2] at hk hf
          cases x with
          | error e => cases hk
          | ok t =>
            simp only at hk hf ⊢
            cases h3 : (PTree.getProver t p.secretValues : PM (Option (CoreProver E) × Core E)) w1 with
            | error e => rw [h3] at hk; cases hk
            | ok b =>
              obtain ⟨⟨cp, t'⟩, w2⟩ := b
              rw [h3] at hk
              cases hk
              exact hf
  | process j v' =>
    obtain ⟨rfl, hj⟩ := (hk : v' = v ∧ j < o.verifiers.length)
    simp only [step, List.getElem?_eq_getElem hj, process]
    have hf := fullConstruct_stmt w.store o v'
    cases h2 : fullConstruct w.store o v' with
    | mk x o1 =>
      rw [h2] at hf
      cases x <;> exact hf
  | prove d m =>
    obtain ⟨n, hn, rfl⟩ := (hk : ∃ n, (step env o w (.prove d m)).1 = .ok (.proof n) ∧ n.precommitment = v)
    simp only [step, proveCall] at hn ⊢
    rw [prove_leaf] at hn ⊢
    cases h : proveCore env o.stmt.spec d m w with
    | error e => rw [pm_bind_error h] at hn; cases hn
    | ok a =>
      obtain ⟨a, w1⟩ := a
      rw [pm_bind_eq h] at hn ⊢
      have hp := proveCore_precommitment h
      cases hn
      exact ⟨hp.symm, rfl⟩
  | check n m =>
    obtain ⟨rfl, hv⟩ := (hk : n.precommitment = v ∧ v.isNone = false)
    simp only [step, checkCall, hv]
    exact fullConstruct_stmt w.store o n.precommitment

theorem step_length (env : Env E) (o : Objs E) (w : World) {k : Call E} (hk : k ≠ .getVerifier) :
    (step env o w k).2.1.verifiers.length = o.verifiers.length := by
  cases k with
  | getVerifier => exact absurd rfl hk
  | getProver d => rfl
  | precommit i =>
    simp only [step]
    cases o.provers[i]? with
    | none => rfl
    | some p =>
      simp only [precommit]
      split
      · rfl
      · rename_i v w1 _
        have := fullConstruct_rest w1.store o v
        split
        · rename_i h; rw [h] at this; rw [this.2]
        · rename_i h; rw [h] at this
          split <;> rw [this.2]
  | commit i =>
    simp only [step]
    cases o.provers[i]? with
    | none => rfl
    | some p =>
      simp only [commit]
      split
      · rfl
      · split <;> rfl
  | respond i c =>
    simp only [step]
    cases o.provers[i]? with
    | none => rfl
    | some p =>
      simp only [respond]
      split <;> rfl
  | process i v =>
    simp only [step]
    cases o.verifiers[i]? with
    | none => rfl
    | some y =>
      simp only [process]
      have := fullConstruct_rest w.store o v
      split
      · rename_i h; rw [h] at this; rw [this.2]
      · rename_i h; rw [h] at this; simp only [List.length_set]; rw [this.2]
  | challenge i h com =>
    simp only [step]
    cases o.verifiers[i]? with
    | none => rfl
    | some y =>
      simp only [challenge]
      split <;> simp only [List.length_set]
  | verify i r =>
    simp only [step]
    cases o.verifiers[i]? with
    | none => rfl
    | some y =>
      simp only [verifyCall]
      split
      · rfl
      · split <;> rfl
  | prove d m =>
    simp only [step, proveCall]
    split
    · rfl
    · split <;> rfl
  | check n m =>
    simp only [step, checkCall]
    split
    · rfl
    · rw [(fullConstruct_rest _ _ _).2]

/-- A verifier that has not sent a challenge. -/
def Unasked (o : Objs E) (j : Nat) : Prop := ∀ x, o.verifiers[j]? = some x → x.challenge = none

theorem step_unasked (env : Env E) (o : Objs E) (w : World) {k : Call E} {j : Nat} (ho : Unasked o j)
    (hk : ∀ h com c, k = .challenge j h com → (step env o w k).1 ≠ .ok (.challenge c)) :
    Unasked (step env o w k).2.1 j := by
  by_cases hon : OnVerifier j k
  · cases k with
    | process i v =>
      cases (hon : i = j)
      simp only [step]
      cases hx : o.verifiers[j]? with
      | none => exact ho
      | some x =>
        simp only [process]
        have hr := fullConstruct_rest w.store o v
        cases h2 : fullConstruct w.store o v with
        | mk y o1 =>
          rw [h2] at hr
          cases y with
          | error e => intro z hz; exact ho z (by rw [← hr.2]; exact hz)
          | ok t =>
            intro z hz
            have hz : (o1.verifiers.set j { x with constructed := some (Tree.freshVerifier t) })[j]? = some z := hz
            rw [set_self (by rw [hr.2]; exact hx)] at hz
            cases hz
            exact ho x hx
    | challenge i h com =>
      cases (hon : i = j)
      have hk := fun c => hk h com c rfl
      simp only [step] at hk ⊢
      cases hx : o.verifiers[j]? with
      | none => exact ho
      | some x =>
        simp only [hx, challenge] at hk ⊢
        cases hs : sendChallenge env w.store (o.verifier x) h w with
        | error e =>
          intro z hz
          have hz : (o.verifiers.set j { x with commitment := some com })[j]? = some z := hz
          rw [set_self hx] at hz
          cases hz
          exact ho x hx
        | ok a => rw [hs] at hk; exact absurd rfl (hk a.1)
    | verify i r =>
      cases (hon : i = j)
      intro z hz
      refine ho z ?_
      rw [← hz]
      simp only [step]
      cases hx : o.verifiers[j]? with
      | none => exact hx.symm
      | some x =>
        simp only [verifyCall]
        split
        · exact hx.symm
        · split <;> exact hx.symm
    | getProver d => exact hon.elim
    | precommit i => exact hon.elim
    | commit i => exact hon.elim
    | respond i c => exact hon.elim
    | getVerifier => exact hon.elim
    | prove d m => exact hon.elim
    | check n m => exact hon.elim
  · intro z hz
    cases hx : o.verifiers[j]? with
    | some x =>
      rw [step_verifier env o w hx hon] at hz
      cases hz
      exact ho _ hx
    | none =>
      by_cases hg : k = .getVerifier
      · subst hg
        have hz : (o.verifiers ++ [⟨none, none, none⟩])[j]? = some z := hz
        rw [List.getElem?_append_right (List.getElem?_eq_none_iff.mp hx)] at hz
        cases hj : j - o.verifiers.length with
        | zero => rw [hj] at hz; cases hz; rfl
        | succ n => rw [hj] at hz; cases hz
      · exfalso
        have hlen := step_length env o w hg
        have := (List.getElem?_eq_some_iff.mp hz).1
        rw [hlen] at this
        exact absurd (List.getElem?_eq_none_iff.mp hx) (by omega)

theorem run_unasked (env : Env E) {j : Nat} : ∀ (ks : List (Call E)) (o : Objs E) (w : World), Unasked o j →
    (∀ ks1 ks2 h com, ks = ks1 ++ .challenge j h com :: ks2 → ∀ c,
      (step env (run env ks1 o w).1 (run env ks1 o w).2 (.challenge j h com)).1 ≠ .ok (.challenge c)) →
    Unasked (run env ks o w).1 j
  | [], _, _, ho, _ => ho
  | k :: ks, o, w, ho, hks => by
    rw [run_cons]
    refine run_unasked env ks _ _ (step_unasked env o w ho ?_) ?_
    · rintro h com c rfl
      exact hks [] ks h com rfl c
    · rintro ks1 ks2 h com rfl c
      exact hks (k :: ks1) ks2 h com rfl c

end Shared
end Zksk
