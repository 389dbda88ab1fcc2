import Verif.Lemmas.Apart
import Verif.Props.AliasProver

/-! # C27, C28, C90: compositions with primitives that are refused -/

set_option linter.unusedSectionVars false

namespace Zksk.Props

open Spec

variable {E : Type} [AddCommGroup E] [DecidableEq E]

/-- **C27** Conjunctions with primitives anywhere: if a secret of a disjunction, reached through conjunctions, is also a
secret of another part, then `prove()` never returns a proof, whatever values are given.  A part has the secret if it has
a representation with it, or an extended statement that has it in everything it constructs. -/
theorem C27_with_primitives (env : Env E) (b : Bool) (ts : List (Stmt E)) (u v : Stmt E) (rest : List (Stmt E))
    (h : OrPart (.and b ts) u rest) (hv : v ∈ rest) (x : Sec) (hxu : SpeaksOf x u) (hxv : SpeaksOf x v)
    (ho : ∀ l, HasLeaf l (.and b ts : Stmt E) → OwnLeaf l) (d : Dict Int) (w w' : World) (msg : String) (nizk : NIZK E) (t' : Stmt E) :
    prove (LeafProver E) env (.and b ts) d msg w ≠ .ok ((nizk, t'), w') := by
  intro hp
  obtain ⟨σ, t1, hs, ho', hc⟩ := Apart.prove_checked ho hp
  exact Apart.shared_refused h hv hxu hxv hs ho' hc

/-- **C90** is violated by every statement, with primitives or not, that has a disjunction (reached through
conjunctions) with a secret: the prover never returns a proof of `t0 & t0`. -/
theorem C90_disjunction_with_primitives (env : Env E) (t0 t u : Stmt E) (rest : List (Stmt E))
    (hand : opAnd t0 t0 = .ok t) (h : OrPart t0 u rest) (x : Sec) (hx : SpeaksOf x u)
    (ho : ∀ l, HasLeaf l t0 → OwnLeaf l) (d : Dict Int) (w w' : World) (msg : String) (nizk : NIZK E) (t' : Stmt E) :
    prove (LeafProver E) env t d msg w ≠ .ok ((nizk, t'), w') := by
  obtain ⟨ts, v, rest', rfl, h1, h2, h3, h4⟩ := Apart.twice_parts hand h hx ho
  exact C27_with_primitives env false ts u v rest' h1 h2 x hx h3 h4 d w w' msg nizk t'

/-- **C28** Compositions with primitives anywhere: if a secret is used with groups of different orders, then `prove()`
never returns a proof, whatever values are given. -/
theorem C28_with_primitives (env : Env E) (t : Stmt E) (hcomp : ∀ l, t ≠ .leaf l) (hreg : Regular t) (x : Sec) (n m : Nat)
    (hn : UsesOrder x n t) (hm : UsesOrder x m t) (hnm : n ≠ m) (ho : ∀ l, HasLeaf l t → OwnLeaf l) (d : Dict Int)
    (w w' : World) (msg : String) (nizk : NIZK E) (t' : Stmt E) :
    prove (LeafProver E) env t d msg w ≠ .ok ((nizk, t'), w') := by
  intro hp
  obtain ⟨σ, t1, hs, ho', hc⟩ := Apart.prove_checked ho hp
  exact Apart.orders_refused hcomp hreg hn hm hnm hs ho' hc

/-- **C27** The interactive protocol: a prover of such a conjunction never commits, with or without `precommit()` before
and whatever happened between its steps, and the protocol with any verifier does not come to an end. -/
theorem C27_interactive (env : Env E) (b : Bool) (ts : List (Stmt E)) (u v : Stmt E) (rest : List (Stmt E))
    (h : OrPart (.and b ts) u rest) (hv : v ∈ rest) (x : Sec) (hxu : SpeaksOf x u) (hxv : SpeaksOf x v)
    (ho : ∀ l, HasLeaf l (.and b ts : Stmt E) → OwnLeaf l) (d : Dict Int) (w w1 : World)
    (p : PTree E (Leaf E) (LeafProver E)) (t1 : Stmt E)
    (hp : PTree.getProver (.and b ts) d w = .ok ((some p, t1), w1)) :
    (∀ q, (q = p ∨ ∃ w2 w3 pre, PTree.precommit p w2 = .ok ((pre, q), w3)) → ∀ w4,
      (∀ out, PTree.commit env q w4 ≠ .ok out) ∧ ∀ r out, PTree.commitGiven env q r w4 ≠ .ok out) ∧
    ∀ σv tv w2 out, sigmaProtocol env σv tv p w2 ≠ .ok out :=
  Apart.never_commits ho hp fun _ _ hs ho' hc => Apart.shared_refused h hv hxu hxv hs ho' hc

/-- **C90** The interactive protocol: a prover of `t0 & t0`, for such a `t0`, never commits. -/
theorem C90_disjunction_interactive (env : Env E) (t0 t u : Stmt E) (rest : List (Stmt E))
    (hand : opAnd t0 t0 = .ok t) (h : OrPart t0 u rest) (x : Sec) (hx : SpeaksOf x u)
    (ho : ∀ l, HasLeaf l t0 → OwnLeaf l) (d : Dict Int) (w w1 : World) (p : PTree E (Leaf E) (LeafProver E)) (t1 : Stmt E)
    (hp : PTree.getProver t d w = .ok ((some p, t1), w1)) :
    (∀ q, (q = p ∨ ∃ w2 w3 pre, PTree.precommit p w2 = .ok ((pre, q), w3)) → ∀ w4,
      (∀ out, PTree.commit env q w4 ≠ .ok out) ∧ ∀ r out, PTree.commitGiven env q r w4 ≠ .ok out) ∧
    ∀ σv tv w2 out, sigmaProtocol env σv tv p w2 ≠ .ok out := by
  obtain ⟨ts, v, rest', rfl, h1, h2, h3, h4⟩ := Apart.twice_parts hand h hx ho
  exact C27_interactive env false ts u v rest' h1 h2 x hx h3 h4 d w w1 p t1 hp

/-- **C28** The interactive protocol, as `C27_interactive`. -/
theorem C28_interactive (env : Env E) (t : Stmt E) (hcomp : ∀ l, t ≠ .leaf l) (hreg : Regular t) (x : Sec) (n m : Nat)
    (hn : UsesOrder x n t) (hm : UsesOrder x m t) (hnm : n ≠ m) (ho : ∀ l, HasLeaf l t → OwnLeaf l) (d : Dict Int)
    (w w1 : World) (p : PTree E (Leaf E) (LeafProver E)) (t1 : Stmt E)
    (hp : PTree.getProver t d w = .ok ((some p, t1), w1)) :
    (∀ q, (q = p ∨ ∃ w2 w3 pre, PTree.precommit p w2 = .ok ((pre, q), w3)) → ∀ w4,
      (∀ out, PTree.commit env q w4 ≠ .ok out) ∧ ∀ r out, PTree.commitGiven env q r w4 ≠ .ok out) ∧
    ∀ σv tv w2 out, sigmaProtocol env σv tv p w2 ≠ .ok out :=
  Apart.never_commits ho hp fun _ _ hs ho' hc => Apart.orders_refused hcomp hreg hn hm hnm hs ho' hc

/-- **C28** The exception: where the identifier of the statement can be computed, `commit()` raises
`GroupMismatchError`. -/
theorem C28_interactive_error (env : Env E) (t : Stmt E) (hcomp : ∀ l, t ≠ .leaf l) (hreg : Regular t) (x : Sec)
    (n m : Nat) (hn : UsesOrder x n t) (hm : UsesOrder x m t) (hnm : n ≠ m) (ho : ∀ l, HasLeaf l t → OwnLeaf l)
    (d : Dict Int) (w w1 w4 : World) (p q : PTree E (Leaf E) (LeafProver E)) (t1 : Stmt E) (id : PId E)
    (hp : PTree.getProver t d w = .ok ((some p, t1), w1))
    (hq : q = p ∨ ∃ w2 w3 pre, PTree.precommit p w2 = .ok ((pre, q), w3))
    (hid : Tree.proofId w4.store (PTree.stmtOf q) = .ok id) :
    PTree.commit env q w4 = .error .groupMismatch ∧ ∀ r, PTree.commitGiven env q r w4 = .error .groupMismatch := by
  obtain ⟨k1, k2⟩ := Apart.prover_own ho hp hq
  obtain ⟨vs, hvs, _⟩ := bind_ok_iff.mp hid
  exact Apart.commit_error hid (Apart.orders_error hcomp hreg hn hm hnm k1 k2 hvs)

/-- The secret of a `DLNotEqual` statement with `bind` is in everything it constructs. -/
theorem ne_speaks (s : NotEqual E) (hb : s.bind = true) (hg : s.lhs0.grp = s.g.grp) (hh : s.lhs1.grp = s.h.grp) :
    SpeaksOf s.x s.stmt := by
  refine ⟨_, .leaf, fun σ v k hc => ?_⟩
  have hc' : s.construct σ v = .ok k := hc
  obtain ⟨c, rfl⟩ : ∃ c, v = .pt c := by
    unfold NotEqual.construct at hc'
    obtain ⟨c, h, _⟩ := bind_ok_iff.mp hc'
    cases v <;> simp_all [Val.asPt]
  rw [NotEqual.construct_of hg hh] at hc'
  injection hc' with hc'
  subst hc'
  unfold NotEqual.built
  rw [hb]
  simp [secrets, secretsL]

/-- `x2 * 3 == 5` and (a `DLNotEqual` statement about `x2`, or `x0 * 3 == 6`). -/
def exBeside : List (Stmt (ZMod 7)) :=
  [.leaf (.dlrep Ex.rep3), .or false [(exNe true).stmt, .leaf (.dlrep Ex.rep2)]]

private theorem exOr_own : ∀ l, HasLeaf l (.or false [(exNe true).stmt, .leaf (.dlrep Ex.rep2)] : Stmt (ZMod 7)) → OwnLeaf l := by
  intro l hl
  cases hl with
  | any _ _ t ht h =>
    simp only [List.mem_cons, List.not_mem_nil, or_false] at ht
    rcases ht with rfl | rfl
    · cases h
      intro k hk; cases hk
    · cases h; trivial

example (env : Env (ZMod 7)) (d : Dict Int) (w w' : World) (msg : String) (nizk : NIZK (ZMod 7)) (t' : Stmt (ZMod 7)) :
    prove (LeafProver (ZMod 7)) env (.and false exBeside) d msg w ≠ .ok ((nizk, t'), w') := by
  refine C27_with_primitives env false _ _ _ _ (.down false [.leaf (.dlrep Ex.rep3)] _ [] _ _ (.here false _))
    (List.mem_cons_self ..) 2 ?_ ⟨.dlrep Ex.rep3, .leaf, ?_⟩ ?_ d w w' msg nizk t'
  · obtain ⟨l, h1, h2⟩ := ne_speaks (exNe true) rfl rfl rfl
    exact ⟨l, .any _ _ _ (List.mem_cons_self ..) h1, h2⟩
  · show 2 ∈ Ex.rep3.secretVars
    decide
  · intro l hl
    cases hl with
    | all _ _ t ht h =>
      rcases List.mem_append.mp ht with ht | ht
      · cases List.mem_singleton.mp ht
        cases h; trivial
      · cases List.mem_singleton.mp ht
        exact exOr_own l h

/-- The disjunction of `exBeside`, twice. -/
example (env : Env (ZMod 7)) : ∃ t, opAnd (.or false [(exNe true).stmt, .leaf (.dlrep Ex.rep2)])
      (.or false [(exNe true).stmt, .leaf (.dlrep Ex.rep2)]) = .ok t ∧
    ∀ d w w' msg nizk t', prove (LeafProver (ZMod 7)) env t d msg w ≠ .ok ((nizk, t'), w') := by
  refine ⟨_, rfl, fun d w w' msg nizk t' => C90_disjunction_with_primitives env _ _ _ _ rfl (.here false _) 2 ?_
    exOr_own d w w' msg nizk t'⟩
  obtain ⟨l, h1, h2⟩ := ne_speaks (exNe true) rfl rfl rfl
  exact ⟨l, .any _ _ _ (List.mem_cons_self ..) h1, h2⟩

/-- A `DLNotEqual` statement with `bind` multiplies its secret with an element of its group, and what it constructs
is well-formed. -/
theorem ne_order (s : NotEqual E) (hb : s.bind = true) (hg : s.lhs0.grp = s.g.grp) (hh : s.lhs1.grp = s.h.grp) :
    UsesOrder s.x s.g.grp.order s.stmt ∧ Regular s.stmt := by
  have hk : ∀ σ v k, s.construct σ v = .ok k → ∃ c, k = s.built σ c := by
    intro σ v k hc
    obtain ⟨c, rfl⟩ : ∃ c, v = .pt c := by
      unfold NotEqual.construct at hc
      obtain ⟨c, h, _⟩ := bind_ok_iff.mp hc
      cases v <;> simp_all [Val.asPt]
    rw [NotEqual.construct_of hg hh] at hc
    injection hc with hc
    exact ⟨c, hc.symm⟩
  refine ⟨⟨_, .leaf, fun σ v k hc => ?_⟩, .ext _ fun σ v k hc => ?_⟩
  · obtain ⟨c, rfl⟩ := hk σ v k hc
    refine ⟨s.g, ?_, rfl⟩
    unfold NotEqual.built
    rw [hb]
    simp [terms, termsL]
  · obtain ⟨c, rfl⟩ := hk σ v k hc
    unfold NotEqual.built
    rw [hb]
    simp [WellFormed, WellFormedL]

/-- A representation about the secret of `exNe` in a group of another order. -/
def exOther : DLRep (ZMod 7) := ⟨⟨⟨1, 14, true⟩, 5⟩, [⟨⟨1, 14, true⟩, 3⟩], [2], [], false⟩

/-- The `DLNotEqual` statement about a secret, or a representation of the same secret in a group of another order. -/
example (env : Env (ZMod 7)) (d : Dict Int) (w w' : World) (msg : String) (nizk : NIZK (ZMod 7)) (t' : Stmt (ZMod 7)) :
    prove (LeafProver (ZMod 7)) env (.or false [(exNe true).stmt, .leaf (.dlrep exOther)]) d msg w ≠
      .ok ((nizk, t'), w') := by
  obtain ⟨⟨l, h1, h2⟩, h3⟩ := ne_order (exNe true) rfl rfl rfl
  refine C28_with_primitives env _ (fun l h => by cases h) (.any _ _ (by simp) ?_) 2 7 14
    ⟨l, .any _ _ _ (List.mem_cons_self ..) h1, h2⟩
    ⟨.dlrep exOther, .any _ _ _ (List.mem_cons_of_mem _ (List.mem_singleton.mpr rfl)) .leaf, ⟨⟨1, 14, true⟩, 3⟩,
      by simp [exOther], rfl⟩ (by decide) ?_ d w w' msg nizk t'
  · intro t ht
    simp only [List.mem_cons, List.not_mem_nil, or_false] at ht
    rcases ht with rfl | rfl
    · exact h3
    · exact .rep _ rfl
  · intro l hl
    cases hl with
    | any _ _ t ht h =>
      simp only [List.mem_cons, List.not_mem_nil, or_false] at ht
      rcases ht with rfl | rfl
      · cases h
        intro k hk; cases hk
      · cases h; trivial

/-- The premise of `C28_interactive` about `get_prover()`, for the disjunction above. -/
example : ∃ p t1 w1, PTree.getProver (P := LeafProver (ZMod 7)) (.or false [(exNe true).stmt, .leaf (.dlrep exOther)])
    [(2, 4)] ⟨exNeStore, fun _ => 1⟩ = .ok ((some p, t1), w1) :=
  ⟨_, _, _, rfl⟩

/-- The premise of `C27_interactive` about `get_prover()`, for `exBeside`, which meets the other premises by the
example of `C27_with_primitives`. -/
example : ∃ p t1 w1, PTree.getProver (P := LeafProver (ZMod 7)) (.and false exBeside)
    [(2, 4), (0, 2)] ⟨exNeStore, fun _ => 1⟩ = .ok ((some p, t1), w1) :=
  ⟨_, _, _, rfl⟩

/-- The premises of `C28_interactive_error` about the run, for the disjunction above. -/
example : ∃ p t1 w1 v q w2 id, PTree.getProver (P := LeafProver (ZMod 7))
      (.or false [(exNe true).stmt, .leaf (.dlrep exOther)]) [(2, 4)] ⟨exNeStore, fun _ => 1⟩ = .ok ((some p, t1), w1) ∧
    PTree.precommit p w1 = .ok ((v, q), w2) ∧ Tree.proofId w2.store (PTree.stmtOf q) = .ok id :=
  ⟨_, _, _, _, _, _, _, rfl, rfl, rfl⟩

/-- The premise of `C90_disjunction_interactive` about `get_prover()`, for the disjunction of `exBeside`, which meets the
other premises by the example of `C90_disjunction_with_primitives`. -/
example : ∃ t p t1 w1, opAnd (.or false [(exNe true).stmt, .leaf (.dlrep Ex.rep2)])
      (.or false [(exNe true).stmt, .leaf (.dlrep Ex.rep2)]) = .ok t ∧
    PTree.getProver (P := LeafProver (ZMod 7)) t [(2, 4), (0, 2)] ⟨exNeStore, fun _ => 1⟩ = .ok ((some p, t1), w1) :=
  ⟨_, _, _, _, rfl, rfl⟩

end Zksk.Props
