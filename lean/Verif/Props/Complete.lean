import Verif.Lemmas.Progress2
import Verif.Examples

/-! # C13 – C15, C22, C23, C27, C28, C49: honest runs and simulations, composition rules -/

set_option linter.unusedSectionVars false

namespace Zksk.Props

open Spec

variable {E : Type} [AddCommGroup E] [DecidableEq E]

/-! ### C49, C13: proving succeeds -/

/-- Helper: `prove` in terms of its two halves. -/
private theorem prove_of {t t' : Core E} {d : Dict Int} {w w1 w2 : World} {p p' : CoreProver E} {env : Env E}
    {msg : String} {nizk : NIZK E}
    (h : (PTree.getProver t d : PM (Option (CoreProver E) × Core E)) w = .ok ((some p, t'), w1))
    (hn : PTree.getNizkProof env p msg w1 = .ok ((nizk, p'), w2)) :
    prove (DLRepProver E) env t d msg w = .ok ((nizk, PTree.stmtOf p'), w2) := by
  unfold prove
  rw [pm_bind_eq h]
  simp only
  rw [pm_bind_eq hn]
  rfl

/-- **C49** For a statement whose representations are over one group each, which obeys the composition
rules, and whose unmarked part is made true by the values given (in the dictionary or at construction),
`prove()` succeeds for every sequence of random draws, and `verify()` of the result is `True` for
everybody who builds the same statement, with secret objects of the same name pattern that are not
confused among each other.  In particular the prover's own statement object accepts it. -/
theorem C49_prove_succeeds (env : Env E) (t : Core E) (d : Dict Int) (w : World) (msg : String)
    (X : Key → Int) (hs : Solid t) (ht : Torsion t) (hd : d.Uniq (heapFor w.store d t))
    (hX : Satisfied (heapFor w.store d t) d X t) (hc : Composable (heapFor w.store d t) t) :
    ∃ nizk t' w', prove (DLRepProver E) env t d msg w = .ok ((nizk, t'), w') ∧
      w'.store = heapFor w.store d t ∧ shape t' = shape t ∧ secrets t' = secrets t ∧
      verify env w'.store t' nizk msg = .ok true ∧
      ∀ (σv : Store) (tv : Core E), shape tv = shape t →
        SeesAs (heapFor w.store d t) (secrets t) σv (secrets tv) →
        verify env σv tv nizk msg = .ok true := by
  obtain ⟨p, t', w1, h, e0, ⟨nizk, p', w2, hn, hv, hw2, hb⟩, _⟩ := run_progress hs ht hd hX hc env msg
  obtain ⟨b1, b2⟩ := shape_blank _ _ hb
  rw [e0] at hv hw2
  refine ⟨nizk, PTree.stmtOf p', w2, prove_of h hn, hw2, b1, b2, ?_, ?_⟩
  · rw [hw2]
    exact verify_weaken env b1 (by rw [b2]; exact seesAs_refl _ _) hv
  · intro σv tv hsh hsee
    exact verify_weaken env hsh hsee hv

/-- **C13** Completeness of representations: if the values given for the secrets satisfy
`lhs = Σ xᵢ Gᵢ`, `prove()` succeeds for every sequence of random draws and every message, and `verify()`
of the result with the same message is `True`. -/
theorem C13_dlrep_complete (env : Env E) (s : DLRep E) (d : Dict Int) (w : World) (msg : String)
    (X : Key → Int) (hlen : s.secretVars.length = s.bases.length) (hne : s.bases ≠ [])
    (hgrp : ∀ b ∈ s.bases, b.grp = s.lhs.grp) (hord : s.lhs.grp.order ≠ 0)
    (htor : ∀ b ∈ s.bases, (s.lhs.grp.order : Int) • b.val = 0) (hd : d.Uniq w.store)
    (hval : ∀ x ∈ s.secretVars, given w.store d s x = some (X (w.store.key x)))
    (heq : s.lhs.val = (List.zipWith (fun x b => X (w.store.key x) • b.val) s.secretVars s.bases).sum) :
    ∃ nizk t' w', prove (DLRepProver E) env (.leaf s) d msg w = .ok ((nizk, t'), w') ∧
      w'.store = w.store ∧ verify env w.store (.leaf s) nizk msg = .ok true ∧
      verify env w'.store t' nizk msg = .ok true ∧
      ∀ (σv : Store) (sv : DLRep E), sv.lhs = s.lhs → sv.bases = s.bases →
        SeesAs w.store s.secretVars σv sv.secretVars →
        verify env σv (.leaf sv) nizk msg = .ok true := by
  obtain ⟨nizk, t', w', h1, h2, _, _, h3, h4⟩ := C49_prove_succeeds env (.leaf s) d w msg X
    ⟨hlen, hne, hgrp, hord⟩
    (fun x b hx => by
      have hb := (List.of_mem_zip hx).2
      rw [hgrp b hb]; exact htor b hb) hd (.rep s hval (.rep s X hgrp heq)) (.leaf s)
  refine ⟨nizk, t', w', h1, h2, h4 w.store (.leaf s) rfl (seesAs_refl _ _), h3, ?_⟩
  intro σv sv e1 e2 hsee
  refine h4 σv (.leaf sv) ?_ hsee
  have : s.secretVars.length = sv.secretVars.length := by simpa using hsee.1.1
  simp only [shape, e1, e2, this]

/-- `1 = x0·1 + x1·2` over ℤ/7ℤ, proved with `x0 = 2` and `x1 = 3` from the dictionary. -/
example : ∃ nizk t' w', prove (DLRepProver (ZMod 7)) (Ex.env 5) (.leaf Ex.rep1) [(0, 2), (1, 3)] "m"
      ⟨Ex.σ, fun i => i⟩ = .ok ((nizk, t'), w') ∧
      verify (Ex.env 5) Ex.σ (.leaf Ex.rep1) nizk "m" = .ok true := by
  obtain ⟨nizk, t', w', h1, _, h2, _⟩ := C13_dlrep_complete (Ex.env 5) Ex.rep1 [(0, 2), (1, 3)]
    ⟨Ex.σ, fun i => i⟩ "m" (fun κ => if κ.1 = "x0" then 2 else 3) rfl (by simp [Ex.rep1])
    (by simp [Ex.rep1, Ex.P]) (by simp [Ex.rep1, Ex.P, Ex.G])
    (by intro b hb; simp only [Ex.rep1, Ex.P, List.mem_cons, List.not_mem_nil, or_false] at hb
        rcases hb with rfl | rfl <;> decide)
    (by simp only [Dict.Uniq]; decide) (by decide) (by decide)
  exact ⟨nizk, t', w', h1, h2⟩

/-- `(1 = x0·1 + x1·2 and 6 = x0·3) or 5 = x2·3` as one conjunction with an or-clause:
`(1 = x0·1 + x1·2) & (6 = x0·3) & ((5 = x2·3) | (5 = x2·3))`. -/
def exTree : Core (ZMod 7) :=
  .and false [.leaf Ex.rep1, .leaf Ex.rep2, .or false [.leaf Ex.rep3, .leaf Ex.rep3]]

/-- The values of the secrets in the examples. -/
def exVal : Key → Int := fun κ => if κ.1 = "x0" then 2 else if κ.1 = "x1" then 3 else 4

/-- The dictionary of values in the examples. -/
def exDict : Dict Int := [(0, 2), (1, 3), (2, 4)]

theorem exTree_solid : Solid exTree := by
  simp [exTree, Solid, SolidL, Ex.rep1, Ex.rep2, Ex.rep3, Ex.P, Ex.G]

theorem exTree_torsion : Torsion exTree := by
  intro x b hx
  simp only [exTree, terms, termsL, Ex.rep1, Ex.rep2, Ex.rep3, List.zip_cons_cons, List.zip_nil_right,
    List.cons_append, List.nil_append, List.append_nil, List.mem_cons, Prod.mk.injEq,
    List.not_mem_nil, or_false] at hx
  rcases hx with ⟨_, rfl⟩ | ⟨_, rfl⟩ | ⟨_, rfl⟩ | ⟨_, rfl⟩ | ⟨_, rfl⟩ <;> decide

theorem exHeap : heapFor Ex.σ exDict exTree = Ex.σ := by
  refine store_ext fun x => ?_
  simp only [Store.key, heapFor, exTree, exDict, Ex.σ, List.foldl_cons, List.foldl_nil, Prod.mk.injEq,
    true_and]
  by_cases h0 : x = 0
  · simp [h0]
  · by_cases h1 : x = 1
    · simp [h1]
    · by_cases h2 : x = 2
      · simp [h2]
      · simp [h0, h1, Ne.symm h0, Ne.symm h1, Ne.symm h2]

theorem exTree_satisfied : Satisfied Ex.σ exDict exVal exTree := by
  have h1 : ∀ s ∈ [Ex.rep1, Ex.rep2, Ex.rep3], Satisfied Ex.σ exDict exVal (.leaf s) := by
    intro s hs
    simp only [List.mem_cons, List.not_mem_nil, or_false] at hs
    rcases hs with rfl | rfl | rfl
    · exact .rep _ (by decide) (.rep _ _ (by decide) (by decide))
    · exact .rep _ (by decide) (.rep _ _ (by decide) (by decide))
    · exact .rep _ (by decide) (.rep _ _ (by decide) (by decide))
  refine .all _ fun t ht => ?_
  simp only [List.mem_cons, List.not_mem_nil, or_false] at ht
  rcases ht with rfl | rfl | rfl
  · exact h1 _ (by simp)
  · exact h1 _ (by simp)
  · refine .any _ ⟨.leaf Ex.rep3, by simp, rfl⟩ fun t ht _ => ?_
    simp only [List.mem_cons, List.not_mem_nil, or_false, or_self] at ht
    subst ht
    exact h1 _ (by simp)

theorem exTree_composable : Composable Ex.σ exTree := by
  have hv : Tree.validateComposition Ex.σ exTree = .ok () := by rfl
  have hwf := wf_of_solid exTree_solid
  have h : SameOrders Ex.σ exTree ∧ OrsPrivate Ex.σ exTree := by
    rcases validate_and_cases Ex.σ false _ hwf with ⟨h, _⟩ | ⟨h, _⟩ | ⟨_, h⟩
    · rw [show Tree.and false _ = exTree from rfl, hv] at h; cases h
    · rw [show Tree.and false _ = exTree from rfl, hv] at h; cases h
    · exact h
  refine .and _ _ h.1 h.2 fun t ht => ?_
  simp only [List.mem_cons, List.not_mem_nil, or_false] at ht
  rcases ht with rfl | rfl | rfl
  · exact .leaf _
  · exact .leaf _
  · refine .or _ _ ?_ fun t ht => ?_
    · intro x b y c hx hy _
      simp only [terms, termsL, Ex.rep3, List.zip_cons_cons, List.zip_nil_right,
        List.cons_append, List.nil_append, List.mem_cons, Prod.mk.injEq,
        List.not_mem_nil, or_false, or_self] at hx hy
      rw [hx.2, hy.2]
    · simp only [List.mem_cons, List.not_mem_nil, or_false, or_self] at ht
      subst ht
      exact .leaf _

/-- All hypotheses hold for the example, whatever the random draws. -/
theorem exTree_proves (c : Int) (rng : Nat → Nat) : ∃ nizk t' w',
    prove (DLRepProver (ZMod 7)) (Ex.env c) exTree exDict "m" ⟨Ex.σ, rng⟩ = .ok ((nizk, t'), w') ∧
      verify (Ex.env c) w'.store t' nizk "m" = .ok true := by
  obtain ⟨nizk, t', w', h1, _, _, _, h2, _⟩ := C49_prove_succeeds (Ex.env c) exTree exDict ⟨Ex.σ, rng⟩ "m"
    exVal exTree_solid exTree_torsion (by simp only [exHeap, exDict, Dict.Uniq]; decide)
    (by simp only [exHeap]; exact exTree_satisfied) (by simp only [exHeap]; exact exTree_composable)
  exact ⟨nizk, t', w', h1, h2⟩

/-! ### C14 -/

/-- **C14** Completeness of composed statements: whenever `prove()` returns a proof, and the values used
by the provers of the representations actually proved satisfy these, with one value per secret, the
proof is accepted: by the prover's own statement object, and by everybody who builds the same statement
with secret objects of the same name pattern that are not confused among each other. -/
theorem C14_composed_complete (env : Env E) (t : Core E) (d : Dict Int) (w w2 : World) (msg : String)
    (nizk : NIZK E) (t2 : Core E) (hw : WellFormed t) (ht : Torsion t)
    (h : prove (DLRepProver E) env t d msg w = .ok ((nizk, t2), w2)) :
    ∃ (p : CoreProver E) (t1 : Core E) (w1 : World), PTree.getProver t d w = .ok ((some p, t1), w1) ∧
      ∀ X : Key → Int,
        (∀ q ∈ active p, (∀ x ∈ q.stmt.secretVars,
          Dict.get? w1.store q.secretValues x = some (X (w1.store.key x))) ∧
          Holds w1.store (.leaf q.stmt) X) →
        w2.store = w1.store ∧ verify env w2.store t2 nizk msg = .ok true ∧
        ∀ (σv : Store) (tv : Core E), shape tv = shape t →
          SeesAs w2.store (secrets t) σv (secrets tv) → verify env σv tv nizk msg = .ok true := by
  unfold prove at h
  obtain ⟨⟨p?, t1⟩, w1, h1, h⟩ := pm_bind.mp h
  cases p? with
  | none => exact (raise_ne.mp h).elim
  | some p =>
    simp only at h
    obtain ⟨⟨n, p'⟩, w3, h2, h⟩ := pm_bind.mp h
    rw [pm_pure_iff, Prod.mk.injEq, Prod.mk.injEq] at h
    obtain ⟨⟨rfl, rfl⟩, rfl⟩ := h
    refine ⟨p, t1, w1, h1, ?_⟩
    · intro X hX
      obtain ⟨e1, e2, e3⟩ := core_nizk hw ht h1 X hX h2
      obtain ⟨b1, b2⟩ := shape_blank _ _ e3
      exact ⟨e2, verify_weaken env b1 (by rw [b2]; exact seesAs_refl _ _) e1,
        fun σv tv hsh hsee => verify_weaken env hsh hsee e1⟩

/-- Both hypotheses on values are met by an actual run of a conjunction sharing `x0`. -/
example : ∃ nizk t2 w2, prove (DLRepProver (ZMod 7)) (Ex.env 3) (.and false [.leaf Ex.rep1, .leaf Ex.rep2])
    exDict "m" ⟨Ex.σ, fun i => i⟩ = .ok ((nizk, t2), w2) ∧
    verify (Ex.env 3) w2.store t2 nizk "m" = .ok true := ⟨_, _, _, rfl, rfl⟩

/-! ### C15 -/

/-- **C15** The interactive protocol between an honest prover and a verifier with its own statement
object and heap accepts, for all random draws (the challenge is one of them). -/
theorem C15_interactive_complete (env : Env E) (t : Core E) (d : Dict Int) (w : World)
    (X : Key → Int) (hs : Solid t) (ht : Torsion t) (hd : d.Uniq (heapFor w.store d t))
    (hX : Satisfied (heapFor w.store d t) d X t) (hc : Composable (heapFor w.store d t) t) :
    ∃ (p : CoreProver E) (t1 : Core E) (w1 : World), PTree.getProver t d w = .ok ((some p, t1), w1) ∧
      ∀ (σv : Store) (tv : Core E), shape tv = shape t →
        SeesAs (heapFor w.store d t) (secrets t) σv (secrets tv) →
        ∃ w', sigmaProtocol env σv tv p w1 = .ok (true, w') := by
  obtain ⟨p, t', w1, h, e0, _, w', hsig⟩ := run_progress hs ht hd hX hc env ""
  refine ⟨p, t', w1, h, fun σv tv hsh hsee => ⟨w', ?_⟩⟩
  exact sigma_weaken env hsh (e0 ▸ hsee) hsig

/-- **C15** After the prover has committed, it answers every challenge whatsoever (also negative ones or
ones longer than 128 bits) in a way that the verifier accepts. -/
theorem C15_every_challenge (t t1 : Core E) (p p1 p2 : CoreProver E) (d : Dict Int) (w w1 w2 w3 : World)
    (v com : Val E) (hw : WellFormed t) (ht : Torsion t)
    (h : PTree.getProver t d w = .ok ((some p, t1), w1)) (X : Key → Int)
    (hX : ∀ q ∈ active p, (∀ x ∈ q.stmt.secretVars,
      Dict.get? w1.store q.secretValues x = some (X (w1.store.key x))) ∧
      Holds w1.store (.leaf q.stmt) X)
    (hpre : PTree.precommit p w1 = .ok ((v, p1), w2))
    (hcom : PTree.internalCommit p1 none w2 = .ok ((com, p2), w3)) (c : Int) :
    ∃ r w', PTree.computeResponse p2 c w3 = .ok (r, w') ∧ verifyResponse w1.store t com c r = .ok true := by
  obtain ⟨r, w', h1, _, h2⟩ := core_every_challenge hw ht h X hX hpre hcom c
  exact ⟨r, w', h1, h2⟩

example (rng : Nat → Nat) : ∃ (p : CoreProver (ZMod 7)) (t1 : Core (ZMod 7)) (w1 : World),
    PTree.getProver exTree exDict ⟨Ex.σ, rng⟩ = .ok ((some p, t1), w1) ∧
      ∃ w', sigmaProtocol (Ex.env 0) Ex.σ exTree p w1 = .ok (true, w') := by
  obtain ⟨p, t1, w1, h1, h2⟩ := C15_interactive_complete (Ex.env 0) exTree exDict ⟨Ex.σ, rng⟩
    exVal exTree_solid exTree_torsion (by simp only [exDict, Dict.Uniq]; decide)
    (by simp only [exHeap]; exact exTree_satisfied) (by simp only [exHeap]; exact exTree_composable)
  exact ⟨p, t1, w1, h1, h2 _ _ rfl (by simp only [exHeap]; exact seesAs_refl _ _)⟩

/-! ### C22, C23 -/

/-- Helper: what `simulate()` returns, and what verifiers compute from it. -/
private theorem simulated {env : Env E} {t t' : Core E} {c : Option Int} {w w' : World} {tr : Sim E}
    {h : List UInt8} (hw : WellFormed t) (hs : simulateTop env t c w = .ok ((tr, h, t'), w')) :
    w'.store = w.store ∧ (∀ c0, c = some c0 → tr.challenge = c0) ∧ Tree.blank t' = Tree.blank t ∧
    ∃ id, IsId (shape t) ((secrets t).map w.store.name) id ∧ h = env.digest id ∧
      ∀ tv : Core E, Tree.blank tv = Tree.blank t → ∃ t1,
        Tree.process w.store (Tree.freshVerifier tv) tr.precommitment = .ok t1 ∧
        digestPrecommitment w.store (Tree.freshVerifier tv) tr.precommitment = .ok t1 ∧
        checkStatement env w.store t1 h = .ok id ∧ preVerification w.store t1 tr.responses = .ok () ∧
        Tree.recompute t1 tr.challenge tr.responses = .ok tr.commitment := by
  unfold simulateTop at hs
  rw [pm_bind_eq (prepareSim_core _ w)] at hs
  obtain ⟨tr', w1, h1, hs⟩ := pm_bind.mp hs
  rw [pm_getStore_bind, pm_liftE_bind_iff] at hs
  obtain ⟨id, hid, hs⟩ := hs
  rw [pm_pure_iff, Prod.mk.injEq, Prod.mk.injEq, Prod.mk.injEq] at hs
  obtain ⟨⟨rfl, rfl, rfl⟩, rfl⟩ := hs
  have hb : Tree.blank (Tree.setSimulated true t) = Tree.blank t := by
    cases t with
    | leaf s => rfl
    | and _ _ => rfl
    | or _ _ => rfl
  have hwf : WellFormed (Tree.setSimulated true t) := by
    rw [← wf_blank, hb, wf_blank]; exact hw
  obtain ⟨e1, e2, e3, ρ, _, e4⟩ := simulate_core _ _ (core_blank _) ((wf_blank _).mpr hwf) (by simp) h1
  have hacc := simulate_accepts (fun _ : DLRep E => True)
    (fun l w w' d c sim _ h => by rw [simulate_dlrep_precommitment h]; exact acceptsT_dlrep l)
    (Tree.setSimulated true t) (by
      clear h1 hb hwf e1 e2 e3 e4 hid
      have : ∀ t : Core E, WellFormed t → Good (fun _ : DLRep E => True) t := by
        intro t
        induction t using Tree.ind with
        | leaf s => intro _; exact .leaf s trivial
        | and s subs ih => intro h; exact .and s subs h.1 fun t ht => ih t ht (wellFormedL_iff.mp h.2 t ht)
        | or s subs ih => intro h; exact .or s subs h.1 fun t ht => ih t ht (wellFormedL_iff.mp h.2 t ht)
      refine this _ ?_
      cases t with
      | leaf s => exact hw
      | and _ _ => exact hw
      | or _ _ => exact hw) w w1 none c tr' h1
  rw [e1] at hid
  obtain ⟨b1, b2⟩ := shape_blank _ _ hb
  have hid2 : IsId (shape t) ((secrets t).map w.store.name) id := by
    rw [← b1, ← b2]
    exact (proofId_iff (skel_core _) (secretVars_core _)).mp hid
  refine ⟨e1, e2, hb, id, hid2, rfl, fun tv htv => ?_⟩
  obtain ⟨t1, g1, g2, g3, g4, g5⟩ := hacc.1 w.store tv (judge_core (htv.trans hb.symm))
  obtain ⟨t2, k1, k2, k3, k4, k5⟩ := digest_of_acceptsT hacc w.store (judge_core (htv.trans hb.symm))
  have ht1 : t1 = t2 := by
    unfold digestPrecommitment at k1
    split at k1
    · rename_i hv
      rw [isNone_iff] at hv
      injection k1 with k1
      have := (hacc.2 (by rw [hv]; rfl))
      rw [fresh_core] at g1 k1
      rcases process_core w.store w.store tv tv tr'.precommitment rfl with ⟨e, q1, _⟩ | ⟨q1, _⟩
      · rw [q1] at g1; cases g1
      · rw [q1] at g1; injection g1 with g1
        rw [← g1, ← k1]
    · rw [g1] at k1; exact Except.ok.inj k1
  subst ht1
  have hb2 : Tree.skel t1 = some (shape t) := by rw [g2, skel_core]; exact congrArg some b1
  obtain ⟨k', h3, h4, h5⟩ := core_core (Tree.setSimulated true t)
  rw [core_blank] at h3
  injection h3 with h3
  obtain ⟨j1, j2, j3⟩ := checks_of (env := env) (σ := w.store) hb2 (g3.trans (core_blank _)) g4
    (g5.trans (validate_core _)) (id := id) (by
      rw [h3]
      have : secrets k' = secrets t := h5.trans b2
      rw [this]; exact hid2) e4 e3
  exact ⟨t1, g1, k1, j1, j2, j3⟩

/-- **C22** Every transcript made by `simulate()` passes `verify_simulation_consistency`, on the
statement object that made it. -/
theorem C22_simulation_consistent (env : Env E) (t t' : Core E) (c : Option Int) (w w' : World)
    (tr : Sim E) (h : List UInt8) (hw : WellFormed t)
    (hs : simulateTop env t c w = .ok ((tr, h, t'), w')) :
    verifySimulationConsistency env w'.store t' tr h = .ok true ∧
    verifySimulationConsistency env w'.store t tr h = .ok true ∧
    ∀ c0, c = some c0 → tr.challenge = c0 := by
  obtain ⟨e1, e2, e3, id, e4, e5, e6⟩ := simulated hw hs
  rw [e1]
  have key : ∀ tv : Core E, Tree.blank tv = Tree.blank t →
      verifySimulationConsistency env w.store tv tr h = .ok true := by
    intro tv htv
    obtain ⟨t1, h1, _, h2, h3, h4⟩ := e6 tv htv
    unfold verifySimulationConsistency verifyResponse
    simp only [h1, h2, h3, h4, bind_ok, decide_true]
  exact ⟨key t' e3, key t rfl, e2⟩

/-- **C22** Simulation works on every statement whose representations are over one group each: no
secrets are needed. -/
theorem C22_simulation_exists (env : Env E) (t : Core E) (c : Option Int) (w : World) (hs : Solid t) :
    ∃ tr h t' w', simulateTop env t c w = .ok ((tr, h, t'), w') := by
  have hg : Good SolidRep (Tree.setSimulated true t) := by
    have := good_of_solid t hs
    exact good_blank this _ (by cases t <;> rfl)
  obtain ⟨tr, w1, h1, h2⟩ := simulate_progress _ hg none c w (by simp)
  obtain ⟨id, _, hid, _⟩ := Tree.proofId_isOk (σ := w1.store) (skel_core (Tree.setSimulated true t))
  refine ⟨tr, env.digest id, Tree.setSimulated true t, w1, ?_⟩
  unfold simulateTop
  rw [pm_bind_eq (prepareSim_core _ w), pm_bind_eq h1, pm_getStore_bind, hid, pm_liftE_bind]
  rfl

/-- **C23** A simulated transcript, presented as a non-interactive proof, is accepted exactly if its
challenge equals the Fiat–Shamir hash of its own statement, precommitment, commitment and the
message. -/
theorem C23_simulation_not_proof (env : Env E) (t t' : Core E) (c : Option Int) (w w' : World)
    (tr : Sim E) (h : List UInt8) (msg : String) (hw : WellFormed t)
    (hs : simulateTop env t c w = .ok ((tr, h, t'), w')) :
    ∃ id, IsId (shape t) ((secrets t).map w.store.name) id ∧
      (verify env w.store t ⟨tr.challenge, tr.responses, tr.precommitment, h⟩ msg = .ok true ↔
        env.fiatShamir id tr.precommitment tr.commitment msg = .ok tr.challenge) := by
  obtain ⟨e1, e2, e3, id, e4, e5, e6⟩ := simulated hw hs
  refine ⟨id, e4, ?_⟩
  obtain ⟨t1, _, h1, h2, h3, h4⟩ := e6 t rfl
  unfold verify
  simp only [h1, h2, h3, h4, bind_ok]
  cases env.fiatShamir id tr.precommitment tr.commitment msg with
  | error e => simp [bind, Except.bind]
  | ok c' =>
    simp only [bind_ok, Except.ok.injEq, decide_eq_true_eq]
    exact eq_comm

/-- Simulating the example statement, including its or-clause, with challenge 2; with a hash function
that returns another challenge the transcript is refused. -/
example (rng : Nat → Nat) : ∃ tr h t' w', simulateTop (Ex.env 1) exTree (some 2) ⟨Ex.σ0, rng⟩ =
      .ok ((tr, h, t'), w') ∧ verifySimulationConsistency (Ex.env 1) w'.store t' tr h = .ok true ∧
      verify (Ex.env 1) Ex.σ0 exTree ⟨tr.challenge, tr.responses, tr.precommitment, h⟩ "" ≠ .ok true := by
  obtain ⟨tr, h, t', w', hs⟩ := C22_simulation_exists (Ex.env 1) exTree (some 2) ⟨Ex.σ0, rng⟩ exTree_solid
  have hw := wf_of_solid exTree_solid
  obtain ⟨h1, _, h2⟩ := C22_simulation_consistent _ _ _ _ _ _ _ _ hw hs
  obtain ⟨id, _, h3⟩ := C23_simulation_not_proof _ _ _ _ _ _ _ _ "" hw hs
  refine ⟨tr, h, t', w', hs, h1, fun hv => ?_⟩
  have := h3.mp hv
  unfold Env.fiatShamir at this
  obtain ⟨i, _, this⟩ := bind_ok_iff.mp this
  simp only [Ex.env, Except.ok.injEq] at this
  have h4 := h2 2 rfl
  omega

/-! ### C27, C28 -/

/-- **C27, C28** The check a prover runs on a conjunction has exactly three outcomes:
`GroupMismatchError` iff some secret occurs with bases of groups of different orders; otherwise
`InvalidSecretsError` iff a disjunction reachable through conjunctions has a secret that occurs outside
of this disjunction; otherwise success. -/
theorem C27_conjunction_check (σ : Store) (b : Bool) (subs : List (Core E))
    (hwf : WellFormed (.and b subs)) :
    (Tree.validateComposition σ (.and b subs) = .error .groupMismatch ↔ ¬ SameOrders σ (.and b subs)) ∧
    (Tree.validateComposition σ (.and b subs) = .error .invalidSecrets ↔
      SameOrders σ (.and b subs) ∧ ¬ OrsPrivate σ (.and b subs)) ∧
    (Tree.validateComposition σ (.and b subs) = .ok () ↔
      SameOrders σ (.and b subs) ∧ OrsPrivate σ (.and b subs)) := by
  rcases validate_and_cases σ b subs hwf with ⟨h1, h2⟩ | ⟨h1, h2, h3⟩ | ⟨h1, h2, h3⟩ <;>
    simp [h1, h2]
  · exact h3
  · exact h3

/-- **C28** The check a prover runs on a disjunction raises `GroupMismatchError` iff some secret occurs
with bases of groups of different orders, and otherwise succeeds. -/
theorem C28_disjunction_check (σ : Store) (b : Bool) (subs : List (Core E))
    (hwf : WellFormed (.or b subs)) :
    (Tree.validateComposition σ (.or b subs) = .error .groupMismatch ↔ ¬ SameOrders σ (.or b subs)) ∧
    (Tree.validateComposition σ (.or b subs) = .ok () ↔ SameOrders σ (.or b subs)) := by
  rcases validate_or_cases σ b subs hwf with ⟨h1, h2⟩ | ⟨h1, h2⟩ <;> simp [h1, h2]

/-- Helper: `prove` fails with the error of `internal_commit`. -/
private theorem prove_error {t t' : Core E} {d : Dict Int} {w w1 : World} {p : CoreProver E} {env : Env E}
    {msg : String} {PL : DLRepProver E → Prop}
    (h : (PTree.getProver t d : PM (Option (CoreProver E) × Core E)) w = .ok ((some p, t'), w1))
    (hp : Primed PL p) {e : Err} (hc : PTree.internalCommit p none w1 = .error e) :
    prove (DLRepProver E) env t d msg w = .error e := by
  obtain ⟨v, hv, _⟩ := precommit_progress p hp w1
  unfold prove
  rw [pm_bind_eq h]
  simp only
  have : PTree.getNizkProof env p msg w1 = .error e := by
    unfold PTree.getNizkProof
    rw [pm_bind_eq hv]
    simp only
    show (StateT.bind _ _) w1 = _
    simp only [StateT.bind, hc]
    rfl
  show (StateT.bind _ _) w1 = _
  simp only [StateT.bind, this]
  rfl

/-- **C27, C28** Consequence for `prove()` on a conjunction for whose secrets correct values are given:
it raises `GroupMismatchError` if some secret occurs with bases of groups of different orders, and
otherwise `InvalidSecretsError` if a disjunction shares a secret with the rest of the conjunction. -/
theorem C27_prove_refuses (env : Env E) (subs : List (Core E)) (d : Dict Int) (w : World) (msg : String)
    (X : Key → Int) (hs : Solid (.and false subs)) (ht : Torsion (.and false subs))
    (hd : d.Uniq (heapFor w.store d (.and false subs)))
    (hX : Satisfied (heapFor w.store d (.and false subs)) d X (.and false subs)) :
    (¬ SameOrders (heapFor w.store d (.and false subs)) (.and false subs) →
      prove (DLRepProver E) env (.and false subs) d msg w = .error .groupMismatch) ∧
    (SameOrders (heapFor w.store d (.and false subs)) (.and false subs) →
      ¬ OrsPrivate (heapFor w.store d (.and false subs)) (.and false subs) →
      prove (DLRepProver E) env (.and false subs) d msg w = .error .invalidSecrets) := by
  obtain ⟨p, t', w1, h, e0, e1, _, e3⟩ := getProver_satisfied hs ht hd hX
  rw [← e0]
  cases p with
  | leaf q => simp [PTree.stmtOf, Tree.blank] at e3
  | or _ _ _ _ _ => simp [PTree.stmtOf, Tree.blank] at e3
  | and b ps =>
    have hg := good_blank (good_of_solid _ hs) _ e3
    simp only [PTree.stmtOf] at hg e3
    have hcommit : ∀ e, Tree.validateComposition w1.store (.and b (PTree.stmtOfL ps) : Core E) = .error e →
        prove (DLRepProver E) env (.and false subs) d msg w = .error e := by
      intro e he
      refine prove_error h e1 ?_
      simp only [PTree.internalCommit]
      rw [pm_getStore_bind, he]
      rfl
    rcases validate_and_cases w1.store b (PTree.stmtOfL ps) (wf_of_good hg) with
      ⟨h1, h2⟩ | ⟨h1, h2, h3⟩ | ⟨h1, h2, h3⟩
    · exact ⟨fun _ => hcommit _ h1, fun ho _ => (h2 (sameOrders_blank e3 ho)).elim⟩
    · exact ⟨fun ho => (ho (sameOrders_blank e3.symm h2)).elim, fun _ _ => hcommit _ h1⟩
    · exact ⟨fun ho => (ho (sameOrders_blank e3.symm h2)).elim,
        fun _ hp => (hp (orsPrivate_blank e3.symm h3)).elim⟩

/-- **C28** Consequence for `prove()` on a disjunction. -/
theorem C28_prove_refuses (env : Env E) (subs : List (Core E)) (d : Dict Int) (w : World) (msg : String)
    (X : Key → Int) (hs : Solid (.or false subs)) (ht : Torsion (.or false subs))
    (hd : d.Uniq (heapFor w.store d (.or false subs)))
    (hX : Satisfied (heapFor w.store d (.or false subs)) d X (.or false subs))
    (ho : ¬ SameOrders (heapFor w.store d (.or false subs)) (.or false subs)) :
    prove (DLRepProver E) env (.or false subs) d msg w = .error .groupMismatch := by
  obtain ⟨p, t', w1, h, e0, e1, _, e3⟩ := getProver_satisfied hs ht hd hX
  rw [← e0] at ho
  cases p with
  | leaf q => simp [PTree.stmtOf, Tree.blank] at e3
  | and _ _ => simp [PTree.stmtOf, Tree.blank] at e3
  | or b idx stmts sub sims =>
    have hg := good_blank (good_of_solid _ hs) _ e3
    simp only [PTree.stmtOf] at hg e3
    refine prove_error h e1 ?_
    simp only [PTree.internalCommit]
    rw [pm_getStore_bind]
    rcases validate_or_cases w1.store b _ (wf_of_good hg) with ⟨h1, h2⟩ | ⟨h1, h2⟩
    · exact (ho (sameOrders_blank e3.symm h2)).elim
    · rw [h1]; rfl

/-- `x2` inside and outside an or-clause. -/
example : ¬ OrsPrivate Ex.σ (.and false [.leaf Ex.rep3, .or false [.leaf Ex.rep3, .leaf Ex.rep2]]) ∧
    Tree.validateComposition Ex.σ (.and false [.leaf Ex.rep3, .or false [.leaf Ex.rep3, .leaf Ex.rep2]]) =
      .error .invalidSecrets := by
  have h : Tree.validateComposition Ex.σ
      (.and false [.leaf Ex.rep3, .or false [.leaf Ex.rep3, .leaf Ex.rep2]]) = .error .invalidSecrets := rfl
  exact ⟨((C27_conjunction_check Ex.σ false _
    (by simp [WellFormed, WellFormedL, Ex.rep2, Ex.rep3])).2.1.mp h).2, h⟩

/-- A representation of the same secret in a group of another order. -/
example : Tree.validateComposition Ex.σ (.or false [.leaf Ex.rep3,
      .leaf ⟨⟨⟨1, 14, true⟩, 5⟩, [⟨⟨1, 14, true⟩, 3⟩], [2], [], false⟩] : Core (ZMod 7)) =
    .error .groupMismatch := rfl

end Zksk.Props
