import Verif.Lemmas.Alias
import Verif.Props.NotEqual

namespace Zksk.Props

open Zksk Spec Alias

variable {E : Type} [AddCommGroup E] [DecidableEq E]

/-- **C89** When no extended statement object occurs at two places, a composition whose leaves are
objects verifies every proof as the composition with separate leaves does.  (`DLRep` objects may
occur any number of times.) -/
theorem C89_separate_partial (env : Env E) (σ : Store) (t : Tree (Placed E)) (hu : Unshared t) (nizk : NIZK E)
    (message : String) : Alias.verify env σ t nizk message = Zksk.verify env σ (separate t) nizk message := by
  rw [separate_verify]
  unfold Alias.verify Zksk.verify
  cases h : digestPrecommitment σ (Tree.freshVerifier t) nizk.precommitment with
  | error e => rfl
  | ok t1 =>
    simp only [bind, Except.bind]
    rw [digest_unshared hu h]

/-- **C89** The same in an interactive conversation. -/
theorem C89_interactive_partial (σ : Store) (t : Tree (Placed E)) (hu : Unshared t) (v com : Val E) (c : Int)
    (r : Val E) :
    (do let t1 ← receive σ t v; verifyResponse σ t1 com c r) =
      (do let t1 ← Tree.process σ (Tree.freshVerifier (separate t)) v; verifyResponse σ t1 com c r) := by
  rw [separate_freshVerifier, separate_process]
  unfold receive
  cases h : Tree.process σ (Tree.freshVerifier t) v with
  | error e => rfl
  | ok t1 =>
    simp only [bind, Except.bind, Except.map]
    rw [settle_unshared (unshared_of_tags ((process_tags σ _ v h).trans (freshVerifier_tags t)) hu),
      separate_verifyResponse]

/-- **C89** Every expression in which each composition is used where it is made, and leaf objects any
number of times (`(p & q) | (p & r)`, `p | p`), builds a statement that verifies as the one with
separate leaves. -/
theorem C89_expression (env : Env E) (σ : Store) (objs : Nat → Leaf E) (b : Build) (n : Nat) (nizk : NIZK E) (message : String) :
    Alias.verify env σ (b.make objs n).1 nizk message = Zksk.verify env σ (separate (b.make objs n).1) nizk message :=
  C89_separate_partial env σ _ (make_unshared objs b n) nizk message

/-- **C89** A conjunction `c = And(s, d1, d2, ...)` with a `DLNotEqual` statement `s`, repeated in
`c | c | ... | c` or `c & c & ... & c`: whatever the precommitments are, the verifier reaches the
verdict that separate objects reach when every one of them receives the *last* precommitment. -/
theorem C89_last (s : NotEqual E) (hgrp : ∀ p ∈ [s.lhs0, s.lhs1, s.h], p.grp = s.g.grp) (ds : List (Nat × DLRep E))
    (σ : Store) (isOr : Bool) (vs : List (Pt E)) (w : Pt E) (com : Val E) (c : Int) (r : Val E) :
    sharedVerdict σ (repeated isOr s ds (vs.length + 1)) (precommitments ds (vs ++ [w])) com c r =
      separateVerdict σ (repeated isOr s ds (vs.length + 1)) (precommitments ds (List.replicate (vs.length + 1) w)) com c r := by
  have h := separateVerdict_eq hgrp ds σ isOr (List.replicate (vs.length + 1) w) com c r
  rw [List.length_replicate] at h
  rw [h, sharedVerdict_eq hgrp]
  have hm : (List.replicate (vs.length + 1) w).map (clause s ds σ) = (vs ++ [w]).map fun _ => clause s ds σ w := by
    rw [List.map_replicate, List.map_const', List.length_append, List.length_singleton]
  rw [hm]
  have hv := fullValidateL_congr (f := clauseSeen s ds σ w) (g := fun _ => clause s ds σ w) (fun _ => rfl) (vs ++ [w])
  have hca := fun i d => consistencyAnd_congr (σ := σ) (r := r) (f := clauseSeen s ds σ w) (g := fun _ => clause s ds σ w)
    (fun _ _ _ => rfl) (vs ++ [w]) i d
  have hco := fun i => consistencyOr_congr (σ := σ) (r := r) (f := clauseSeen s ds σ w) (g := fun _ => clause s ds σ w)
    (fun _ _ _ => rfl) (vs ++ [w]) i
  have hra := fun i => recomputeAnd_congr (c := c) (r := r) (f := clauseSeen s ds σ w) (g := fun _ => clause s ds σ w)
    (fun _ _ _ => rfl) (vs ++ [w]) i
  have hro := fun cs r i => recomputeOr_congr (cs := cs) (r := r) (f := clauseSeen s ds σ w) (g := fun _ => clause s ds σ w)
    (fun _ _ _ => rfl) (vs ++ [w]) i
  cases isOr
  · simp only [Bool.false_eq_true, if_false, verifyResponse, preVerification, Tree.fullValidate, hv,
      Tree.consistency, hca, Tree.recompute, hra]
  · simp only [if_true, verifyResponse, preVerification, Tree.fullValidate, hv,
      Tree.consistency, hco, Tree.recompute, hro]

/-- **C89** fails for disjunctions `c | ... | c` of one conjunction `c` with a `DLNotEqual` statement: a
conversation that is right when the clauses are separate objects is rejected, unless the
precommitments of all clauses agree with the last one up to the challenges of the clauses. -/
theorem C89_or_false (s : NotEqual E) (hgrp : ∀ p ∈ [s.lhs0, s.lhs1, s.h], p.grp = s.g.grp) (ds : List (Nat × DLRep E)) (σ : Store)
    (vs : List (Pt E)) (w : Pt E) (hvs : ∀ v ∈ vs ++ [w], v.grp = s.g.grp) (com : Val E) (c : Int) (cs : List Int)
    (rs : Val E) (hacc : separateVerdict σ (repeated true s ds (vs.length + 1)) (precommitments ds (vs ++ [w])) com c
      (.tuple [.list (cs.map .int), rs]) = .ok true) :
    ∃ b, sharedVerdict σ (repeated true s ds (vs.length + 1)) (precommitments ds (vs ++ [w])) com c
        (.tuple [.list (cs.map .int), rs]) = .ok b ∧
      (b = true ↔ ∀ (j : Nat) (v : Pt E) (cj : Int), vs[j]? = some v → cs[j]? = some cj → cj • v.val = cj • w.val) := by
  have h := separateVerdict_eq hgrp ds σ true (vs ++ [w]) com c (.tuple [.list (cs.map .int), rs])
  rw [List.length_append, List.length_singleton] at h
  rw [h] at hacc
  rw [sharedVerdict_eq hgrp]
  simp only [if_true] at hacc ⊢
  obtain ⟨hv, ⟨d, hc⟩, hr⟩ := accepted_inv hacc
  simp only [Tree.fullValidate] at hv
  have hv' := fullValidateL_seen (ds := ds) (σ := σ) (fullValidateL_last vs hv) (vs ++ [w])
  simp only [Tree.consistency] at hc
  rw [consistencyOr_congr (f := clause s ds σ) (g := clauseSeen s ds σ w) (fun _ _ _ => rfl)] at hc
  simp only [Tree.recompute, Val.index, List.getElem?_cons_zero, List.getElem?_cons_succ, bind, Except.bind,
    asIntList_ints] at hr
  have hres : findResidualChallenge cs c challengeLength = 0 := by
    by_contra hne
    simp only [ne_eq, hne, not_false_eq_true, if_true] at hr
    cases hr
  simp only [hres, ne_eq, not_true_eq_false, if_false] at hr
  cases hk : Tree.recomputeOr ((vs ++ [w]).map (clause s ds σ)) 0 cs rs with
  | error e => simp only [hk] at hr; cases hr
  | ok coms =>
    simp only [hk] at hr
    cases hr
    obtain ⟨coms', h1, h2⟩ := recomputeOr_seen (w := w) (vs ++ [w]) 0
      (fun v hv => (hvs w (by simp)).trans (hvs v hv).symm) hk
    refine ⟨decide ((Val.list coms : Val E) = .list coms'), ?_, ?_⟩
    · simp only [verifyResponse, preVerification, Tree.fullValidate, hv', Tree.consistency, Tree.recompute, Val.index,
        List.getElem?_cons_zero, List.getElem?_cons_succ, asIntList_ints, bind_ok, hres, ne_eq, not_true_eq_false,
        if_false, h1]
      cases hco : Tree.consistencyOr σ ((vs ++ [w]).map (clauseSeen s ds σ w)) 0
          (.tuple [.list (cs.map .int), rs]) with
      | error e => rw [hco] at hc; cases hc
      | ok b => rw [hco] at hc; cases hc; rfl
    · rw [decide_eq_true_iff, Val.list.injEq, h2]
      constructor
      · intro ha j v cj hj hcj
        refine ha j v cj ?_ (by simpa using hcj)
        rw [List.getElem?_append_left]
        · exact hj
        · exact (List.getElem?_eq_some_iff.mp hj).1
      · intro ha j v cj hj hcj
        simp only [Nat.zero_add] at hcj
        by_cases hlt : j < vs.length
        · rw [List.getElem?_append_left hlt] at hj
          exact ha j v cj hj hcj
        · rw [List.getElem?_append_right (by omega)] at hj
          have : v = w := by
            have := List.mem_of_getElem? hj
            simpa using this
          rw [this]

/-- **C89** fails for conjunctions `c & ... & c` in the same way. -/
theorem C89_and_false (s : NotEqual E) (hgrp : ∀ p ∈ [s.lhs0, s.lhs1, s.h], p.grp = s.g.grp) (ds : List (Nat × DLRep E)) (σ : Store)
    (vs : List (Pt E)) (w : Pt E) (hvs : ∀ v ∈ vs ++ [w], v.grp = s.g.grp) (com : Val E) (c : Int)
    (r : Val E) (hacc : separateVerdict σ (repeated false s ds (vs.length + 1)) (precommitments ds (vs ++ [w])) com c r = .ok true) :
    ∃ b, sharedVerdict σ (repeated false s ds (vs.length + 1)) (precommitments ds (vs ++ [w])) com c r = .ok b ∧
      (b = true ↔ ∀ v ∈ vs, c • v.val = c • w.val) := by
  have h := separateVerdict_eq hgrp ds σ false (vs ++ [w]) com c r
  rw [List.length_append, List.length_singleton] at h
  rw [h] at hacc
  rw [sharedVerdict_eq hgrp]
  simp only [Bool.false_eq_true, if_false] at hacc ⊢
  obtain ⟨hv, ⟨d, hc⟩, hr⟩ := accepted_inv hacc
  simp only [Tree.fullValidate] at hv
  have hv' := fullValidateL_seen (ds := ds) (σ := σ) (fullValidateL_last vs hv) (vs ++ [w])
  simp only [Tree.consistency] at hc
  rw [consistencyAnd_congr (f := clause s ds σ) (g := clauseSeen s ds σ w) (fun _ _ _ => rfl)] at hc
  simp only [Tree.recompute] at hr
  cases hk : Tree.recomputeAnd ((vs ++ [w]).map (clause s ds σ)) 0 c r with
  | error e => rw [hk] at hr; cases hr
  | ok coms =>
    rw [hk] at hr
    cases hr
    obtain ⟨coms', h1, h2⟩ := recomputeAnd_seen (w := w) (vs ++ [w]) 0
      (fun v hv => (hvs w (by simp)).trans (hvs v hv).symm) hk
    refine ⟨decide ((Val.list coms : Val E) = .list coms'), ?_, ?_⟩
    · simp only [verifyResponse, preVerification, Tree.fullValidate, hv', Tree.consistency, Tree.recompute, bind_ok,
        hc, if_true, h1]
    · rw [decide_eq_true_iff, Val.list.injEq, h2]
      constructor
      · intro ha v hv
        exact ha v (by simp [hv])
      · intro ha v hv
        rcases List.mem_append.mp hv with hv | hv
        · exact ha v hv
        · rw [List.mem_singleton.mp hv]

/-- `DLRep` of `P 2` to the base `P 1`, with the secret of `exNe`. -/
def exAlso : DLRep (ZMod 7) := ⟨Ex.P 2, [Ex.P 1], [2], [], false⟩

/-- A run with an honest prover for `c | c`, made with separate objects: the verifier with separate
objects accepts the messages, the verifier of `c | c` rejects them. -/
def exTwice (bind : Bool) : Bool :=
  let t := repeated true (exNe bind) [(1, exAlso)] 2
  let run : PM (Val (ZMod 7) × Val (ZMod 7) × Int × Val (ZMod 7)) := do
    match ← PTree.getProver (separate t) [(2, 2)] with
    | (none, _) => raise .typeError
    | (some (p : StmtProver (ZMod 7)), _) => do
      let (v, p1) ← PTree.precommit p
      let ((_, com), p2) ← PTree.commit (Ex.env 5) p1
      let r ← PTree.computeResponse p2 3
      pure (v, com, 3, r)
  match run ⟨exNeStore, fun i => 3 * i + 1⟩ with
  | .error _ => false
  | .ok ((v, com, c, r), w) =>
    decide (separateVerdict w.store t v com c r = .ok true) && decide (sharedVerdict w.store t v com c r = .ok false)

example (bind : Bool) : exTwice bind = true := by
  cases bind <;> decide +kernel

/-- The responses of a conversation for `c & c`. -/
def exSame : Val (ZMod 7) :=
  let r : Val (ZMod 7) := .list [.list [.list [.int 1, .int 2], .list [.int 1, .int 2]], .list [.int 4]]
  .list [r, r]

/-- Its commitments. -/
def exComs : Val (ZMod 7) :=
  .list [.list [.list [.pt (Ex.P 5), .pt (Ex.P 4)], .pt (Ex.P 0)], .list [.list [.pt (Ex.P 5), .pt (Ex.P 0)], .pt (Ex.P 0)]]

/-- Two copies with different precommitments and the same responses: right for separate objects only. -/
example :
    separateVerdict exNeStore (repeated false (exNe false) [(1, exAlso)] 2) (precommitments [(1, exAlso)] ([Ex.P 1] ++ [Ex.P 3]))
      exComs 2 exSame = .ok true ∧
    sharedVerdict exNeStore (repeated false (exNe false) [(1, exAlso)] 2) (precommitments [(1, exAlso)] ([Ex.P 1] ++ [Ex.P 3]))
      exComs 2 exSame = .ok false := by
  decide +kernel

/-- `(p & q) | (p & r)` and `p | p`: all leaves are different objects. -/
example (objs : Nat → Leaf (ZMod 7)) :
    (places ((Build.or [.and [.obj 0, .obj 1], .and [.obj 0, .obj 2]]).make objs 3).1).map Placed.obj = [3, 4, 6, 7] ∧
    (places ((Build.or [.obj 0, .obj 0]).make objs 3).1).map Placed.obj = [3, 4] := by
  constructor <;> rfl

/-- The object `s` of `c | c` is shared. -/
example : ¬ Unshared (repeated true (exNe false) [(1, exAlso)] 2) := by
  show ¬ [0, 0].Nodup
  decide

end Zksk.Props
