import Verif.Lemmas.Falsy
import Verif.Examples

/-! # C47, C48 -/

set_option linter.unusedSectionVars false

namespace Zksk.Props

open Spec

variable {E : Type} [AddCommGroup E] [DecidableEq E]

/-- **C47.** Verifying does not depend on the state of the statement object. -/
theorem C47_state_independent (env : Env E) (σ : Store) {t t' : Stmt E} (h : SameStmt t t') (nizk : NIZK E)
    (msg : String) (b : Bool) : verify env σ t nizk msg = .ok b ↔ verify env σ t' nizk msg = .ok b :=
  ⟨verify_same h, verify_same (sameStmt_symm h)⟩

/-- **C47.** Nor does it depend on what was verified, proved or simulated with the object before. -/
theorem C47_history_independent (env : Env E) (σ : Store) {t t' : Stmt E} (h : Later t t') (nizk : NIZK E)
    (msg : String) (b : Bool) : verify env σ t' nizk msg = .ok b ↔ verify env σ t nizk msg = .ok b :=
  (C47_state_independent env σ (after_same h) nizk msg b).symm

/-- An extended statement: "I know a multiple of 1 equal to the precommitted point", precommitment `5`,
simulated precommitment `3`. -/
def exSpec : ExtSpec (ZMod 7) where
  cls := "Ex"
  construct σ v := do
    let p ← v.asPt
    let s ← mkDLRep σ p [0] [Ex.P 1] false
    .ok (.leaf s)
  validate _ := .ok ()
  precommit := pure (.pt (Ex.P 5))
  simPrecommit := pure (.pt (Ex.P 3))

/-- A fresh statement object. -/
def freshExt (s : ExtSpec E) : Ext E := ⟨s, false, .none, none, none⟩

/-- The object after verifying a proof with precommitment `3`. -/
def exUsed : Ext (ZMod 7) :=
  ⟨exSpec, false, .pt (Ex.P 3), some (.leaf ⟨Ex.P 3, [Ex.P 1], [0], [], false⟩),
    some (.leaf ⟨Ex.P 3, [Ex.P 1], [0], [], false⟩)⟩

/-- A proof leaves its precommitment (`3`) in the object; an acceptable proof with another
precommitment (`5`) is accepted then, and a wrong one rejected. -/
example : Later (.leaf (.ext (freshExt exSpec))) (.leaf (.ext exUsed)) ∧
    verify (Ex.env 2) Ex.σ0 (.leaf (Leaf.ext exUsed)) ⟨2, .list [.int 4], .pt (Ex.P 5), []⟩ "" = .ok true ∧
    verify (Ex.env 2) Ex.σ0 (.leaf (Leaf.ext exUsed)) ⟨1, .list [.int 4], .pt (Ex.P 5), []⟩ "" = .ok false :=
  ⟨.verify _ _ _ (.refl _) Ex.σ0 (.pt (Ex.P 3)) rfl, by decide, by decide⟩

/-- **C48** A statement with an extended part, wherever it stands: a proof without precommitment gets no verdict, true or
false, from any verifier, whatever state the statement object is in. -/
theorem C48_none_no_verdict (t : Stmt E) (e : Ext E) (he : HasLeaf (.ext e) t) (env : Env E) (σ : Store) (nizk : NIZK E)
    (hn : nizk.precommitment = .none) (msg : String) (b : Bool) : verify env σ t nizk msg ≠ .ok b := by
  intro h
  rw [verify_iff] at h
  obtain ⟨S, k, id, com, ρ, c, hd, _⟩ := h
  rcases hd with ⟨_, h3, _⟩ | ⟨h3, _⟩
  · exact embed_ne_hasLeaf he k h3
  · exact h3 hn

/-- **C48 (refuted).** Disjunctions of extended statements whose precommitments count as false (like the empty list of
the default), and possibly of representations; disjunctions of such statements that are to be simulated, and of a
composition of representations that is to be proved; conjunctions with such a part; and disjunctions in which such a
clause is to be proved: a proof is accepted by no verifier of that statement, whatever state it is in. -/
theorem C48_never_accepted (t : Stmt E) (ht : Stranded t) (d : Dict Int) (env : Env E) (msg : String) (w w' : World)
    (nizk : NIZK E) (t' : Stmt E) (hp : prove (LeafProver E) env t d msg w = .ok ((nizk, t'), w'))
    (env' : Env E) (σ : Store) (tv : Stmt E) (hv : SameStmt t tv)
    (msg' : String) (b : Bool) : verify env' σ tv nizk msg' ≠ .ok b := by
  obtain ⟨p, p', t1, w1, w2, h1, h2⟩ := prove_precommitment hp
  intro h
  rw [C47_state_independent env' σ (sameStmt_symm hv)] at h
  rw [verify_iff] at h
  obtain ⟨S, k, id, com, ρ, c, hd, _⟩ := h
  rcases hd with ⟨_, h3, _⟩ | ⟨_, h3⟩
  · obtain ⟨e, he⟩ := stranded_ext ht
    exact embed_ne_hasLeaf he k h3
  · exact stranded_digested ht d _ _ _ _ h1 _ _ _ _ h2 σ S k h3

/-- **C48 (refuted).** The case of a disjunction of single statements, with empty precommitments. -/
theorem C48_or_never_accepted (ts : List (Stmt E)) (hex : ∃ s : Ext E, .leaf (.ext s) ∈ ts)
    (h : ∀ t ∈ ts, (∃ s : DLRep E, t = .leaf (.dlrep s)) ∨ ∃ s : Ext E, t = .leaf (.ext s) ∧
      (∀ (w w' : World) (v : Val E), s.spec.precommit w = .ok (v, w') → v = .list []) ∧
      ∀ (w w' : World) (v : Val E), s.spec.simPrecommit w = .ok (v, w') → v = .list [])
    (sim : Bool) (d : Dict Int) (env : Env E) (msg : String) (w w' : World) (nizk : NIZK E) (t' : Stmt E)
    (hp : prove (LeafProver E) env (.or sim ts) d msg w = .ok ((nizk, t'), w'))
    (env' : Env E) (σ : Store) (tv : Stmt E) (hv : SameStmt (.or sim ts) tv)
    (msg' : String) (b : Bool) : verify env' σ tv nizk msg' ≠ .ok b := by
  obtain ⟨s, hs⟩ := hex
  refine C48_never_accepted _ (.flat sim ts s hs fun t ht => ?_) d env msg w w' nizk t' hp env' σ tv hv msg' b
  rcases h t ht with h | ⟨s, rfl, h1, h2⟩
  · exact .inl h
  · exact .inr ⟨s, rfl, fun w w' v h => by rw [h1 w w' v h]; rfl, fun w w' v h => by rw [h2 w w' v h]; rfl⟩

/-- An extended statement with the default precommitment: `4 = x0·2`. -/
def exPlainSpec : ExtSpec (ZMod 7) where
  cls := "Plain"
  construct σ _ := do
    let s ← mkDLRep σ (Ex.P 4) [0] [Ex.P 2] false
    .ok (.leaf s)
  validate _ := .ok ()
  precommit := pure (.list [])
  simPrecommit := pure (.list [])

/-- Honest proofs of such disjunctions exist. -/
example : ∃ (r : NIZK (ZMod 7) × Stmt (ZMod 7)) (w' : World),
    prove (LeafProver (ZMod 7)) (Ex.env 2) (.or false [.leaf (.ext (freshExt exPlainSpec)),
      .leaf (.ext (freshExt exPlainSpec))]) [(0, 2)] "" ⟨Ex.σ, fun _ => 1⟩ = .ok (r, w') :=
  ⟨_, _, rfl⟩

/-- A conjunction with such a disjunction as a part. -/
def exPartly : Stmt (ZMod 7) := .and false [.leaf (.dlrep Ex.rep3), .or false [.leaf (.ext (freshExt exPlainSpec)),
  .leaf (.ext (freshExt exPlainSpec))]]

/-- Honest proofs exist. -/
example : Stranded exPartly ∧ ∃ (r : NIZK (ZMod 7) × Stmt (ZMod 7)) (w' : World),
    prove (LeafProver (ZMod 7)) (Ex.env 2) exPartly [(0, 2), (2, 4)] "" ⟨Ex.σ, fun _ => 0⟩ = .ok (r, w') := by
  refine ⟨.part _ _ _ (List.mem_of_getElem? (i := 1) rfl) (.flat _ _ (freshExt exPlainSpec) (by simp) fun t ht => ?_), _, _, rfl⟩
  simp only [List.mem_cons, List.not_mem_nil, or_false, or_self] at ht
  subst ht
  exact .inr ⟨_, rfl, fun w w' v h => by cases h; rfl, fun w w' v h => by cases h; rfl⟩

/-- A conjunction of representations, or an extended statement to be simulated. -/
def exHalf : Stmt (ZMod 7) := .or false [.and false [.leaf (.dlrep Ex.rep1), .leaf (.dlrep Ex.rep2)],
  .leaf (.ext { freshExt exPlainSpec with simulated := true })]

/-- It is a case of `Stranded.plain`, and honest proofs exist. -/
example : Stranded exHalf ∧ ∃ (r : NIZK (ZMod 7) × Stmt (ZMod 7)) (w' : World),
    prove (LeafProver (ZMod 7)) (Ex.env 2) exHalf [(0, 2), (1, 3)] "" ⟨Ex.σ, fun _ => 0⟩ = .ok (r, w') :=
  ⟨.plain _ _ 0 _ rfl (.all _ _ fun t ht => by
    simp only [List.mem_cons, List.not_mem_nil, or_false] at ht
    rcases ht with rfl | rfl <;> exact .rep _) _ (List.mem_of_getElem? (i := 1) rfl) (fun j t hj hne => by
      match j, hj with
      | 0, _ => exact (hne rfl).elim
      | 1, hj =>
        obtain rfl := Option.some.inj hj
        exact ⟨.inr ⟨_, rfl, fun w w' v h => by cases h; rfl, fun w w' v h => by cases h; rfl⟩, rfl⟩
      | j + 2, hj => simp at hj), _, _, rfl⟩

/-- The same with the conjunction to be simulated. -/
def exHalf' : Stmt (ZMod 7) := .or false [.and true [.leaf (.dlrep Ex.rep1), .leaf (.dlrep Ex.rep2)],
  .leaf (.ext (freshExt exPlainSpec))]

/-- If the conjunction is simulated instead, its precommitment `[None, None]` counts as true, and the same extended
statement is proved and verified. -/
example : (match prove (LeafProver (ZMod 7)) (Ex.env 2) exHalf' [(0, 2)] "" ⟨Ex.σ, fun _ => 0⟩ with
    | .ok (r, _) => decide (verify (Ex.env 2) Ex.σ exHalf' r.1 "" = .ok true)
    | .error _ => false) = true := by decide +kernel

end Zksk.Props
