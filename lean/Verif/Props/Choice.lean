import Verif.Lemmas.Again
import Verif.Lemmas.Zero
import Verif.Props.Complete

/-! # C29 – C32: composition rules and the verifier, choice of the or-clause, proving repeatedly -/

set_option linter.unusedSectionVars false

namespace Zksk.Props

open Spec

variable {E : Type} [AddCommGroup E] [DecidableEq E]

/-! ### C29 -/

/-- **C29** (violated) The verifier does not re-check the composition rules: *every* true statement,
whether or not it obeys the rules, has a proof that `verify()` accepts, for every message and whatever the
hash function. -/
theorem C29_true_statements_accepted (env : Env E) (σ : Store) (t : Core E) (X : Key → Int) (msg : String)
    (hs : Solid t) (h : Holds σ t X) : ∃ nizk, verify env σ t nizk msg = .ok true := by
  obtain ⟨id, _, hid, _⟩ := Tree.proofId_isOk (σ := σ) (skel_core t)
  obtain ⟨c, hc⟩ : ∃ c, env.fiatShamir id .none (zeroCommitment t) msg = .ok c := by
    unfold Env.fiatShamir Env.challengeInput
    rw [zero_chunk]
    exact ⟨_, rfl⟩
  obtain ⟨r, hr1, hr2⟩ := zero_run σ t hs c X (.inr h)
  refine ⟨⟨c, r, .none, env.digest id⟩, ?_⟩
  obtain ⟨d', hd'⟩ := consistency_iff.mpr ⟨_, hr1⟩
  unfold verify digestPrecommitment checkStatement preVerification
  simp only [fresh_core, Val.isNone, if_true, bind_ok, hid, ne_eq, not_true_eq_false, if_false,
    validate_core, hd', (recompute_iff _ _ _ _).mpr hr2, hc, decide_true]

/-- The conjunction `5 = x2·3` and (`5 = x2·3` or `6 = x0·3`), which uses `x2` inside and outside an
or-clause. -/
def exShared : Core (ZMod 7) := .and false [.leaf Ex.rep3, .or false [.leaf Ex.rep3, .leaf Ex.rep2]]

/-- `5 = x2·3` in the group of order 7 and in one of order 14. -/
def exOrders : Core (ZMod 7) :=
  .and false [.leaf Ex.rep3, .leaf ⟨⟨⟨1, 14, true⟩, 5⟩, [⟨⟨1, 14, true⟩, 3⟩], [2], [], false⟩]

private theorem exShared_not : ¬ OrsPrivate Ex.σ exShared := by
  intro h
  exact h _ _ _ (OrAt.down false [.leaf Ex.rep3] _ [] [] [] _ (.here false _)) 2 (by decide) 2 (by decide) rfl

private theorem exOrders_not : ¬ SameOrders Ex.σ exOrders := by
  intro h
  have := h 2 (Ex.P 3) 2 ⟨⟨1, 14, true⟩, 3⟩ (by simp [exOrders, terms, termsL, Ex.rep3])
    (by simp [exOrders, terms, termsL, Ex.rep3]) rfl
  simp [Ex.P, Ex.G] at this

private theorem holds_rep3 : Holds Ex.σ (.leaf Ex.rep3) exVal := .rep _ _ (by simp [Ex.rep3, Ex.P]) (by decide)

private theorem exShared_holds : Holds Ex.σ exShared exVal := by
  refine .all _ _ _ fun t ht => ?_
  simp only [List.mem_cons, List.not_mem_nil, or_false] at ht
  rcases ht with rfl | rfl
  · exact holds_rep3
  · exact .any _ _ _ exVal (.leaf Ex.rep3) (by simp) holds_rep3

private theorem exOrders_holds : Holds Ex.σ exOrders exVal := by
  refine .all _ _ _ fun t ht => ?_
  simp only [List.mem_cons, List.not_mem_nil, or_false] at ht
  rcases ht with rfl | rfl
  · exact holds_rep3
  · exact .rep _ _ (by simp) (by decide)

/-- **C29** (violated) Statements breaking either composition rule are accepted, whatever the hash
function. -/
theorem C29_rules_not_rechecked (env : Env (ZMod 7)) (msg : String) :
    (∃ t : Core (ZMod 7), ¬ OrsPrivate Ex.σ t ∧ ∃ nizk, verify env Ex.σ t nizk msg = .ok true) ∧
    (∃ t : Core (ZMod 7), ¬ SameOrders Ex.σ t ∧ ∃ nizk, verify env Ex.σ t nizk msg = .ok true) :=
  ⟨⟨exShared, exShared_not, C29_true_statements_accepted env Ex.σ _ _ msg
      (by simp [exShared, Solid, SolidL, Ex.rep2, Ex.rep3, Ex.P, Ex.G]) exShared_holds⟩,
   ⟨exOrders, exOrders_not, C29_true_statements_accepted env Ex.σ _ _ msg
      (by simp [exOrders, Solid, SolidL, Ex.rep3, Ex.P, Ex.G]) exOrders_holds⟩⟩

/-- **C29** What remains true (the check is on the prover's side): a proof returned by `prove()` is for a
statement whose top-level composition obeys the rules.  Missing: the verifier does not know this, see
`C29_rules_not_rechecked`. -/
theorem C29_prover_checks_partial (env : Env E) (t t' : Core E) (d : Dict Int) (msg : String) (nizk : NIZK E)
    (w w' : World) (hwf : WellFormed t)
    (h : prove (DLRepProver E) env t d msg w = .ok ((nizk, t'), w')) :
    (∀ b subs, t = .and b subs → SameOrders (heapFor w.store d t) t ∧ OrsPrivate (heapFor w.store d t) t) ∧
    (∀ b subs, t = .or b subs → SameOrders (heapFor w.store d t) t) := by
  by_cases hl : ∃ s, t = .leaf s
  · obtain ⟨s, rfl⟩ := hl
    exact ⟨by simp, by simp⟩
  have hl' : ∀ s, t ≠ .leaf s := fun s hs => hl ⟨s, hs⟩
  obtain ⟨p, p', t1, w1, h1, h2, rfl⟩ := prove_split h
  rw [getProver_heap hl'] at h1
  have hu : updateSecretValues (heapFor w.store d t) d = heapFor w.store d t := by
    rw [heapFor_eq _ _ hl', updateSecretValues_idem]
  obtain ⟨f1, _, f2⟩ := getProver_frame hu hwf rfl h1
  have hb := f2 p rfl
  have hwf' : WellFormed (PTree.stmtOf p) := by rw [← wf_blank, hb, wf_blank]; exact hwf
  unfold PTree.getNizkProof at h2
  obtain ⟨⟨v, p1⟩, w2, h3, h2⟩ := pm_bind.mp h2
  obtain ⟨⟨com, p2⟩, w3, h4, _⟩ := pm_bind.mp h2
  obtain ⟨e1, e2⟩ := precommit_stmt p v p1 w1 w2 h3
  subst e1
  have hw2 : w2.store = heapFor w.store d t := by rw [e2]; exact f1
  constructor
  · rintro b subs rfl
    cases p1 with
    | leaf q => simp [PTree.stmtOf, Tree.blank] at hb
    | or _ _ _ _ _ => simp [PTree.stmtOf, Tree.blank] at hb
    | and s ps =>
      simp only [PTree.internalCommit] at h4
      rw [pm_getStore_bind, pm_liftE_bind_iff] at h4
      obtain ⟨_, h5, _⟩ := h4
      rw [hw2] at h5
      simp only [PTree.stmtOf] at hb hwf'
      obtain ⟨g1, g2⟩ := (C27_conjunction_check _ _ _ hwf').2.2.mp h5
      exact ⟨sameOrders_blank hb.symm g1, orsPrivate_blank hb.symm g2⟩
  · rintro b subs rfl
    cases p1 with
    | leaf q => simp [PTree.stmtOf, Tree.blank] at hb
    | and _ _ => simp [PTree.stmtOf, Tree.blank] at hb
    | or s idx stmts sub sims =>
      simp only [PTree.internalCommit] at h4
      rw [pm_getStore_bind, pm_liftE_bind_iff] at h4
      obtain ⟨_, h5, _⟩ := h4
      rw [hw2] at h5
      simp only [PTree.stmtOf] at hb hwf'
      exact sameOrders_blank hb.symm ((C28_disjunction_check _ _ _ hwf').2.mp h5)

/-- The hypotheses are met by the composed example of C49. -/
example (c : Int) (rng : Nat → Nat) : SameOrders (heapFor Ex.σ exDict exTree) exTree := by
  obtain ⟨nizk, t', w', h, _⟩ := exTree_proves c rng
  exact ((C29_prover_checks_partial (Ex.env c) exTree t' exDict "m" nizk ⟨Ex.σ, rng⟩ w'
    (by simp [exTree, WellFormed, WellFormedL, Ex.rep1, Ex.rep2, Ex.rep3]) h).1 _ _ rfl).1

/-! ### C30 -/

section
variable {L P : Type} [StmtOps E L] [ProverOps E L P]

/-- **C30** If `get_prover()` of a disjunction, over clauses of any kind, returns a prover, then the
disjunction was not marked as simulated, nor was the chosen clause, and `get_prover()` of the chosen
clause returned the prover used for it. -/
theorem C30_chosen_clause (s : Bool) (subs : List (Tree L)) (d : Dict Int) (w w' : World) (p : PTree E L P)
    (t' : Tree L) (h : PTree.getProver (.or s subs) d w = .ok ((some p, t'), w')) :
    s = false ∧ ∃ (i : Nat) (t : Tree L) (stmts : List (Tree L)) (sub : PTree E L P) (sims : List (Sim E)),
      p = .or false i stmts sub sims ∧ subs[i]? = some t ∧ t.simulated = false ∧
      ∃ (w1 w2 : World) (t1 : Tree L), PTree.getProver t d w1 = .ok ((some sub, t1), w2) := by
  rcases getProver_or_cases (J := fun _ => True) (fun _ _ _ _ _ _ _ => trivial) trivial h with
    ⟨_, h0⟩ | ⟨_, h0, _⟩ | ⟨h1, i, t, stmts, sub, sims, w1, w2, t1, h2, h3, _, h4, h5⟩
  · cases h0
  · cases h0
  · cases h5
    exact ⟨h1, i, t, stmts, sub, sims, rfl, h2, h3, w1, w2, t1, h4⟩

/-- **C30** If it returns `None`, the disjunction was marked as simulated, or every clause not marked
declined. -/
theorem C30_none_only_if (s : Bool) (subs : List (Tree L)) (d : Dict Int) (w w' : World) (t' : Tree L)
    (h : PTree.getProver (.or s subs) d w = .ok (((none : Option (PTree E L P)), t'), w')) :
    s = true ∨ ∀ t ∈ subs, t.simulated = false → ∃ (w1 w2 : World) (t1 : Tree L),
      PTree.getProver t d w1 = .ok (((none : Option (PTree E L P)), t1), w2) := by
  rcases getProver_or_cases (J := fun _ => True) (fun _ _ _ _ _ _ _ => trivial) trivial h with
    ⟨h0, _⟩ | ⟨_, _, h0⟩ | ⟨_, _, _, _, _, _, _, _, _, _, _, _, _, h5⟩
  · exact .inl h0
  · refine .inr fun t ht hs => ?_
    obtain ⟨w1, w2, t1, _, h1⟩ := h0 t ht hs
    exact ⟨w1, w2, t1, h1⟩
  · cases h5

/-- **C30** Conversely it returns `None` if it is marked as simulated, or if no unmarked clause would give
a prover. -/
theorem C30_none_if (s : Bool) (subs : List (Tree L)) (d : Dict Int) (w w' : World)
    (p? : Option (PTree E L P)) (t' : Tree L) (h : PTree.getProver (.or s subs) d w = .ok ((p?, t'), w'))
    (hn : s = true ∨ ∀ t ∈ subs, t.simulated = false → ∀ (w1 w2 : World) (sub : PTree E L P) (t1 : Tree L),
      PTree.getProver t d w1 ≠ .ok ((some sub, t1), w2)) : p? = none := by
  cases p? with
  | none => rfl
  | some p =>
    obtain ⟨h1, i, t, stmts, sub, sims, _, h2, h3, w1, w2, t1, h4⟩ := C30_chosen_clause s subs d w w' p t' h
    rcases hn with hn | hn
    · rw [h1] at hn; cases hn
    · exact (hn t (List.mem_of_getElem? h2) h3 w1 w2 sub t1 h4).elim

end

/-- **C30** For statements over representations: `None` is returned exactly when the statement is not
provable from the values given (`Declines`: a secret without value in a representation; for a disjunction,
it is marked as simulated or all its unmarked clauses are not provable), whatever the random choices. -/
theorem C30_none_iff (t t' : Core E) (d : Dict Int) (w w' : World) (p? : Option (CoreProver E)) (hs : Solid t)
    (h : PTree.getProver t d w = .ok ((p?, t'), w')) :
    p? = none ↔ Declines (heapFor w.store d t) d t :=
  getProver_none_iff_top hs h

/-- A disjunction with one clause marked as simulated: the other one is chosen. -/
example : ∃ stmts sub sims t' w',
    PTree.getProver (.or false [.leaf { Ex.rep2 with simulated := true }, .leaf Ex.rep3]) exDict
      ⟨Ex.σ, fun i => i⟩ = .ok ((some (.or false 1 stmts sub sims : CoreProver (ZMod 7)), t'), w') :=
  ⟨_, _, _, _, _, rfl⟩

/-- With no secret known, no prover is returned. -/
example : ∃ t' w', PTree.getProver (.or false [.leaf Ex.rep2, .leaf Ex.rep3]) []
      ⟨Ex.σ0, fun i => i⟩ = .ok (((none : Option (CoreProver (ZMod 7))), t'), w') := ⟨_, _, rfl⟩

/-! ### C31 -/

/-- `(1 = x0·1 + x1·2 and 6 = x0·3) or 5 = x2·3`. -/
def exAndOr : Core (ZMod 7) := .or false [.and false [.leaf Ex.rep1, .leaf Ex.rep2], .leaf Ex.rep3]

/-- **C31** (violated) The choice is not restricted to clauses whose secrets are known: with only `x2` given,
`get_prover()` of `(… x0, x1 …) or 5 = x2·3` proves the second clause or raises `ValueError`, depending on
the random choice. -/
theorem C31_unknown_clause_raises :
    ∃ (t : Core (ZMod 7)) (d : Dict Int) (σ : Store) (rng rng' : Nat → Nat) (p : CoreProver (ZMod 7))
      (t' : Core (ZMod 7)) (w' : World),
      PTree.getProver t d ⟨σ, rng⟩ = .ok ((some p, t'), w') ∧
      (PTree.getProver t d : PM (Option (CoreProver (ZMod 7)) × Core (ZMod 7))) ⟨σ, rng'⟩ =
        .error .valueError :=
  ⟨exAndOr, [(2, 4)], Ex.σ0, fun _ => 1, fun _ => 0, _, _, _, rfl, rfl⟩

/-- **C31** (violated) Extended statements never decline: `get_prover()` returns a prover whatever secrets
are known. -/
theorem C31_extended_never_declines (s : Ext E) (d : Dict Int) (w : World) :
    ∃ p t' w', (PTree.getProver (.leaf (.ext s)) d : PM (Option (StmtProver E) × Stmt E)) w =
      .ok ((some p, t'), w') := ⟨_, _, _, rfl⟩

/-- **C31** What remains: for disjunctions nested in any way over representations (no conjunction, no
extended statement) `get_prover()` never raises, returns a prover iff some unmarked clause is provable from
the values given, and the clause chosen is one of those.  (For a representation, `¬ Declines` says that
all its secrets are given.)  Missing: clauses that are conjunctions or extended statements. -/
theorem C31_known_clause_partial (b : Bool) (subs : List (Core E)) (d : Dict Int) (w : World)
    (hs : Solid (.or b subs)) (ha : AndFree (.or b subs)) :
    ∃ (p? : Option (CoreProver E)) (t' : Core E) (w' : World),
      PTree.getProver (.or b subs) d w = .ok ((p?, t'), w') ∧
      (p? = none ↔ Declines (heapFor w.store d (.or b subs)) d (.or b subs)) ∧
      ∀ p, p? = some p → ∃ (i : Nat) (t : Core E) (stmts : List (Core E)) (sub : CoreProver E)
        (sims : List (Sim E)), p = .or false i stmts sub sims ∧ subs[i]? = some t ∧ unmarked t ∧
        ¬ Declines (heapFor w.store d (.or b subs)) d t := by
  have hl : ∀ s, (.or b subs : Core E) ≠ .leaf s := by simp
  have hu : updateSecretValues (heapFor w.store d (.or b subs)) d = heapFor w.store d (.or b subs) := by
    rw [heapFor_eq _ _ hl, updateSecretValues_idem]
  obtain ⟨p?, t', w', h⟩ := getProver_andFree hu (.or b subs) ha hs { w with store := heapFor w.store d (.or b subs) } rfl
  have h0 := h
  rw [← getProver_heap hl] at h0
  refine ⟨p?, t', w', h0, getProver_none_iff_top hs h0, fun p hp => ?_⟩
  subst hp
  have hsub : ∀ t ∈ subs, Solid t := solidL_mem hs.2
  rcases getProver_or_cases (J := fun σ => σ = heapFor w.store d (.or b subs)) (fun t ht w1 r w2 hw1 h1 =>
      (getProver_frame hu (wf_of_solid (hsub t ht)) hw1 h1).1) hu h with
    ⟨_, h1⟩ | ⟨_, h1, _⟩ | ⟨h1, i, t, stmts, sub, sims, w1, w2, t1, h2, h3, h4, h5, h6⟩
  · cases h1
  · cases h1
  · cases h6
    refine ⟨i, t, stmts, sub, sims, rfl, h2, simulated_iff.mp h3, fun hd => ?_⟩
    have := (getProver_none_iff hu t (hsub t (List.mem_of_getElem? h2)) _ _ _ _ h4 h5).mpr hd
    cases this

/-- `6 = x0·3 or 5 = x2·3`, knowing `x2` only, in an order of choices that tries the first clause first. -/
example : ∃ stmts sub sims t' w',
    PTree.getProver (.or false [.leaf Ex.rep2, .leaf Ex.rep3]) [(2, 4)] ⟨Ex.σ0, fun _ => 0⟩ =
      .ok ((some (.or false 1 stmts sub sims : CoreProver (ZMod 7)), t'), w') := ⟨_, _, _, _, _, rfl⟩

example : Solid (.or false [.leaf Ex.rep2, .leaf Ex.rep3]) ∧
    AndFree (.or false [.leaf Ex.rep2, .leaf Ex.rep3]) := by
  refine ⟨by simp [Solid, SolidL, Ex.rep2, Ex.rep3, Ex.P, Ex.G], .any _ _ fun t ht => ?_⟩
  simp only [List.mem_cons, List.not_mem_nil, or_false] at ht
  rcases ht with rfl | rfl <;> exact .rep _

/-! ### C32 -/

/-- A history of `n` successful calls of `prove()` on one statement object, that is `t` before and `t'`
after; dictionaries, messages, random draws and the values of secrets may differ from call to call. -/
inductive Calls (env : Env E) : Nat → Core E → Core E → Prop
  | none (t : Core E) : Calls env 0 t t
  | more (n : Nat) (t t1 t2 : Core E) (d : Dict Int) (msg : String) (w w' : World) (nizk : NIZK E)
      (h : Calls env n t t1) (hp : prove (DLRepProver E) env t1 d msg w = .ok ((nizk, t2), w')) :
      Calls env (n + 1) t t2

/-- Helper: not marked as simulated. -/
private def isFree (t : Core E) : Bool := !t.simulated

/-- **C32** (violated) A disjunction of representations can be proved at most as often as it has clauses
that are not marked as simulated, over all histories of calls: every call uses up at least one. -/
theorem C32_or_used_up (env : Env E) (reps : List (DLRep E)) (n : Nat) (t' : Core E)
    (h : Calls env n (.or false (reps.map .leaf)) t') :
    n ≤ (reps.filter fun s => !s.simulated).length := by
  have key : ∀ (n : Nat) (t t' : Core E), Calls env n t t' → ∀ subs : List (Core E), Leaves subs →
      t = .or false subs → ∃ subs', t' = .or false subs' ∧ Leaves subs' ∧
        n + (subs'.filter isFree).length ≤ (subs.filter isFree).length := by
    intro n t t' h
    induction h with
    | none t => intro subs hl ht; exact ⟨subs, ht, hl, by simp⟩
    | more n t t1 t2 d msg w w' nizk h hp ih =>
      intro subs hl ht
      obtain ⟨subs1, rfl, hl1, hc1⟩ := ih subs hl ht
      obtain ⟨p, p', u, w1, h1, _, rfl⟩ := prove_split hp
      obtain ⟨subs2, e1, e2, ⟨e3, e4⟩, i, a, a', f1, f2, f3, f4⟩ := getProver_or_marks hl1 h1
      refine ⟨subs2, e1, e2, ?_⟩
      have := (count_lt (p := isFree) (q := isFree)
        subs1 subs2 e3 (fun i t u ht hu hp => by
          have := e4 i t u ht hu (by simpa [isFree] using hp)
          simp [isFree, this])).2 ⟨i, a, a', f1, f2, by simp [isFree, f3], by simp [isFree, f4]⟩
      omega
  obtain ⟨subs', _, _, hc⟩ := key n _ _ h (reps.map .leaf)
    (fun t ht => by obtain ⟨s, _, rfl⟩ := List.mem_map.mp ht; exact ⟨s, rfl⟩) rfl
  have : ((reps.map (Tree.leaf : DLRep E → Core E)).filter isFree).length =
      (reps.filter fun s => !s.simulated).length := by
    rw [List.filter_map, List.length_map]; rfl
  omega

/-- `6 = x0·3 or 5 = x2·3`. -/
def exOr : Core (ZMod 7) := .or false ([Ex.rep2, Ex.rep3].map .leaf)

/-- Two calls of `prove()` succeed, the third raises `AttributeError`. -/
example : ∃ t1 t2, Calls (Ex.env 0) 2 exOr t1 ∧
    prove (DLRepProver (ZMod 7)) (Ex.env 0) t1 exDict "m" ⟨Ex.σ, fun _ => 0⟩ = .error t2 ∧
    t2 = .attributeError :=
  ⟨_, _, .more 1 _ _ _ exDict "m" ⟨Ex.σ, fun _ => 0⟩ _ _
    (.more 0 _ _ _ exDict "m" ⟨Ex.σ, fun _ => 0⟩ _ _ (.none _) rfl) rfl, rfl, rfl⟩

/-- A history of successful calls of `prove()` with one dictionary, on one statement object and one set of
secrets: `t`, `w` before and `t'`, `w'` after; messages and random draws are arbitrary. -/
inductive CallsWith (env : Env E) (d : Dict Int) : Nat → Core E → World → Core E → World → Prop
  | none (t : Core E) (w : World) : CallsWith env d 0 t w t w
  | more (n : Nat) (t t1 t2 : Core E) (w w1 w2 : World) (rng : Nat → Nat) (msg : String) (nizk : NIZK E)
      (h : CallsWith env d n t w t1 w1)
      (hp : prove (DLRepProver E) env t1 d msg ⟨w1.store, rng⟩ = .ok ((nizk, t2), w2)) :
      CallsWith env d (n + 1) t w t2 w2

/-- **C32** What remains: a statement without disjunctions that can be proved once can be proved any number
of times; after every history of calls with the same dictionary the next call succeeds and gives an
accepted proof.  Missing: disjunctions, see `C32_or_used_up`. -/
theorem C32_conjunctions_partial (env : Env E) (t : Core E) (d : Dict Int) (w : World) (X : Key → Int)
    (ho : OrFree t) (hs : Solid t) (ht : Torsion t) (hd : d.Uniq (heapFor w.store d t))
    (hX : Satisfied (heapFor w.store d t) d X t) (hc : Composable (heapFor w.store d t) t)
    (n : Nat) (t1 : Core E) (w1 : World) (hist : CallsWith env d n t w t1 w1) (rng : Nat → Nat)
    (msg : String) :
    ∃ nizk t2 w2, prove (DLRepProver E) env t1 d msg ⟨w1.store, rng⟩ = .ok ((nizk, t2), w2) ∧
      verify env w2.store t2 nizk msg = .ok true := by
  have step : ∀ (t1 : Core E) (w1 : World), Tree.blank t1 = Tree.blank t → OrFree t1 →
      heapFor w1.store d t1 = heapFor w.store d t → Satisfied (heapFor w.store d t) d X t1 →
      ∀ (rng : Nat → Nat) (msg : String), ∃ nizk t2 w2,
        prove (DLRepProver E) env t1 d msg ⟨w1.store, rng⟩ = .ok ((nizk, t2), w2) ∧
        verify env w2.store t2 nizk msg = .ok true ∧ Tree.blank t2 = Tree.blank t ∧ OrFree t2 ∧
        heapFor w2.store d t2 = heapFor w.store d t ∧ Satisfied (heapFor w.store d t) d X t2 := by
    intro t1 w1 hb ho1 hh hX1 rng msg
    have hs1 : Solid t1 := by rw [← solid_again, hb, solid_again]; exact hs
    have ht1 : Torsion t1 := by
      intro x b hx
      rw [← terms_blank, hb, terms_blank] at hx
      exact ht x b hx
    obtain ⟨nizk, t2, w2, h1, h2, _, _, h3, _⟩ := C49_prove_succeeds env t1 d ⟨w1.store, rng⟩ msg X hs1 ht1
      (by rw [hh]; exact hd) (by rw [hh]; exact hX1) (by rw [hh]; exact composable_blank hc _ hb)
    obtain ⟨g1, g2⟩ := prove_after hs1 ho1 h1
    rw [hh] at g2 h2
    have hb2 := g1.trans hb
    exact ⟨nizk, t2, w2, h1, h3, hb2, orFree_after g2 ho1, by rw [h2]; exact heapFor_blank hb2 _ _,
      satisfied_after g2 hX1⟩
  have inv : ∀ (n : Nat) (t0 : Core E) (w0 : World) (t1 : Core E) (w1 : World),
      CallsWith env d n t0 w0 t1 w1 → t0 = t → w0 = w → Tree.blank t1 = Tree.blank t ∧ OrFree t1 ∧
      heapFor w1.store d t1 = heapFor w.store d t ∧ Satisfied (heapFor w.store d t) d X t1 := by
    intro n t0 w0 t1 w1 h
    induction h with
    | none t w => rintro rfl rfl; exact ⟨rfl, ho, rfl, hX⟩
    | more n t0 t1 t2 w0 w1 w2 rng msg nizk h hp ih =>
      intro e1 e2
      obtain ⟨i1, i2, i3, i4⟩ := ih e1 e2
      obtain ⟨nizk', t2', w2', h1, _, h3⟩ := step t1 w1 i1 i2 i3 i4 rng msg
      rw [hp] at h1
      simp only [Except.ok.injEq, Prod.mk.injEq] at h1
      obtain ⟨⟨_, rfl⟩, rfl⟩ := h1
      exact h3
  obtain ⟨i1, i2, i3, i4⟩ := inv n t w t1 w1 hist rfl rfl
  obtain ⟨nizk, t2, w2, h1, h2, _⟩ := step t1 w1 i1 i2 i3 i4 rng msg
  exact ⟨nizk, t2, w2, h1, h2⟩

/-- `1 = x0·1 + x1·2`: the second proof, for every hash value and random draws. -/
example (c : Int) (rng rng' : Nat → Nat) : ∃ nizk t1 w1 nizk' t2 w2,
    prove (DLRepProver (ZMod 7)) (Ex.env c) (.leaf Ex.rep1) exDict "a" ⟨Ex.σ, rng⟩ = .ok ((nizk, t1), w1) ∧
    prove (DLRepProver (ZMod 7)) (Ex.env c) t1 exDict "b" ⟨w1.store, rng'⟩ = .ok ((nizk', t2), w2) ∧
      verify (Ex.env c) w2.store t2 nizk' "b" = .ok true := by
  have key := C32_conjunctions_partial (Ex.env c) (.leaf Ex.rep1) exDict ⟨Ex.σ, rng⟩ exVal (.rep _)
    (by simp [Solid, Ex.rep1, Ex.P, Ex.G])
    (by intro x b hx
        simp only [terms, Ex.rep1, List.zip_cons_cons, List.zip_nil_right, List.mem_cons, Prod.mk.injEq,
          List.not_mem_nil, or_false] at hx
        rcases hx with ⟨_, rfl⟩ | ⟨_, rfl⟩ <;> decide)
    (by simp only [exDict, Dict.Uniq, heapFor]; decide)
    (.rep _ (by simp only [heapFor]; decide) (.rep _ _ (by simp [Ex.rep1, Ex.P]) (by simp only [heapFor]; decide)))
    (.leaf _)
  obtain ⟨nizk, t1, w1, h1, _⟩ := key 0 _ _ (.none _ _) rng "a"
  obtain ⟨nizk', t2, w2, h2, h3⟩ := key 1 t1 w1 (.more 0 _ _ _ _ _ _ rng "a" nizk (.none _ _) h1) rng' "b"
  exact ⟨nizk, t1, w1, nizk', t2, w2, h1, h2, h3⟩

end Zksk.Props
