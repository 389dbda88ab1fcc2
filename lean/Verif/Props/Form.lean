import Verif.Lemmas.Form
import Verif.Lemmas.NotEqualRun
import Verif.Lemmas.PowerTwoRun
import Verif.Lemmas.BBSRun
import Verif.Props.Own

/-!
# Proofs of the right form do not crash the verifier (C73)

A verifier reads proofs made by somebody else.  Whatever the numbers and points in it are, a proof whose parts have the
number and types that the statement calls for is accepted or refused: `verify()` returns a Boolean, or raises one of the
exceptions of the library that say that the proof is not accepted.  On proofs of another form it raises exceptions of
Python.
-/

set_option linter.unusedSectionVars false

namespace Zksk.Props

open Spec

variable {E : Type} [AddCommGroup E] [DecidableEq E]

/-- **C73** Statements without extended parts: every proof of the right form, without precommitment, is decided. -/
theorem C73_plain (env : Env E) (σ : Store) (k : Core E) (hs : Solid k) (c : Int) (r : Val E) (hash : List UInt8)
    (msg : String) (hf : Formed k r) : Decides (verify env σ (embed k) ⟨c, r, .none, hash⟩ msg) := by
  obtain ⟨h1, h2, h3⟩ := view_embed k
  exact verify_decides env σ (t1 := embed k) msg (by simp [digestPrecommitment, Val.isNone, h2]) (.inl h3) h1 hs hf
    (by simp)

/-- **C73** Any statement, extended statements anywhere: every proof is decided whose precommitment has the form that
the statement calls for, and whose responses have the form for the statement that results. -/
theorem C73_decides (env : Env E) (σ : Store) (t : Stmt E) (k : Core E) (nizk : NIZK E) (msg : String)
    (hv : nizk.precommitment ≠ .none) (hns : ∀ s, nizk.precommitment ≠ .str s)
    (hr : Legible σ t nizk.precommitment k) (hs : Solid k) (hf : Formed k nizk.responses) :
    Decides (verify env σ t nizk msg) := by
  obtain ⟨t1, S, h1, h2, h3⟩ := process_readable σ hr
  refine verify_decides env σ msg ?_ h2 h3 hs hf hns
  unfold digestPrecommitment
  have : nizk.precommitment.isNone = false := by
    rw [← Bool.not_eq_true]; exact fun e => hv (isNone_iff.mp e)
  rw [this]
  exact h1

/-- Helper: lists of answers. -/
theorem formed_and {b : Bool} {ts : List (Core E)} {rs : List (Val E)} (h : List.Forall₂ Formed ts rs) :
    Formed (.and b ts) (.list rs) := by
  obtain ⟨hl, hg⟩ := get_of_forall₂ h
  refine .all b ts _ (fun i => rs.getD i .none) (fun i hi => ?_) fun i t ht => ?_
  · have : i < rs.length := by omega
    simp [Val.index, this]
  · have hi : i < rs.length := by have := lt_of_get ht; omega
    have e : rs[i]? = some (rs.getD i .none) := by simp [hi]
    exact hg i t _ ht e

/-- **C73** `DLNotEqual`: the precommitment is any point of the group, the responses any numbers. -/
theorem C73_not_equal (env : Env E) (σ : Store) (s : NotEqual E)
    (hgrp : ∀ p ∈ [s.lhs0, s.lhs1, s.h], p.grp = s.g.grp) (hord : s.g.grp.order ≠ 0) (p : Pt E) (hp : p.grp = s.g.grp)
    (c a1 b1 a2 b2 x : Int) (hash : List UInt8) (msg : String) :
    Decides (verify env σ s.stmt ⟨c, .list (.list [.int a1, .int b1] :: .list [.int a2, .int b2] ::
      if s.bind then [.list [.int x]] else []), .pt p, hash⟩ msg) := by
  have hgrp' := hgrp
  simp only [List.mem_cons, List.not_mem_nil, or_false, forall_eq_or_imp, forall_eq] at hgrp'
  obtain ⟨g1, g2, g3⟩ := hgrp'
  refine C73_decides env σ _ (s.built σ p) _ msg (by simp) (by simp) (.ext _ _ _ ?_ ?_)
    (NotEqual.built_solid hgrp hord σ p hp) ?_
  · exact NotEqual.construct_of g1 (g2.trans g3.symm) σ p
  · show s.validate (.pt p) = _ ∨ s.validate (.pt p) = _
    unfold NotEqual.validate
    by_cases h : (Val.pt p : Val E) = .pt s.g.grp.inf
    · exact .inr (if_pos h)
    · exact .inl (if_neg h)
  · unfold NotEqual.built
    refine formed_and (.cons (.rep _ _ [a1, b1] (.inl rfl) rfl) (.cons (.rep _ _ [a2, b2] (.inl rfl) rfl) ?_))
    cases s.bind with
    | false => exact .nil
    | true => exact .cons (.rep _ _ [x] (.inl rfl) rfl) .nil

/-- **C73** `PowerTwoRangeStmt`, made by a verifier: the precommitment is any list of points of the group, one for every
bit, with any integer; every answer consists of two or more sub-challenges and two responses. -/
theorem C73_power_two (env : Env E) (σ : Store) (s : PowerTwo E) (hv : s.isProver = false) (hn : 2 ≤ s.numBits)
    (hcom : s.com.grp = s.g.grp) (hh : s.h.grp = s.g.grp) (hord : s.g.grp.order ≠ 0) (ps : List (Pt E))
    (hl : ps.length = s.numBits) (hp : ∀ p ∈ ps, p.grp = s.g.grp) (rand c : Int) (ans : List (List Int × Int × Int))
    (ha : ans.length = s.numBits) (ha2 : ∀ a ∈ ans, 2 ≤ a.1.length) (hash : List UInt8) (msg : String) :
    Decides (verify env σ s.stmt ⟨c, .list (ans.map fun a => .tuple [.list (a.1.map .int),
      .list [.list [.int a.2.1], .list [.int a.2.2]]]), .dict [("Cs", .list (ps.map .pt)), ("rand", .int rand)], hash⟩
      msg) := by
  have hb : s.proverBits σ = .ok none := by simp [PowerTwo.proverBits, hv]
  refine C73_decides env σ _ _ _ msg (by simp) (by simp) (.ext _ _ _
    (PowerTwo.construct_of (rand := rand) hn hl hp hb (by simp)) ?_)
    (PowerTwo.build_solid hn hl (by simp) hp hh hord) ?_
  · show s.validate _ = _ ∨ s.validate _ = _
    have hc : PowerTwo.combine s.g.grp.inf 1 (ps.map .pt) = .ok _ := PowerTwo.combine_of ps s.g.grp.inf 1 hp
    have e : s.com.add (Pt.smul rand s.h) = .ok ⟨s.com.grp, s.com.val + rand • s.h.val⟩ := by
      simp [Pt.add, Pt.smul, hcom, hh]
    have e1 : (Val.dict [("Cs", .list (ps.map .pt)), ("rand", .int rand)] : Val E).lookup "rand" = .ok (.int rand) := rfl
    have e2 : (Val.dict [("Cs", .list (ps.map .pt)), ("rand", .int rand)] : Val E).lookup "Cs" = .ok (.list (ps.map .pt)) :=
      rfl
    unfold PowerTwo.validate
    simp only [e1, e2, bind_ok, Val.elems, hc, Val.asInt, e]
    split
    · exact .inl rfl
    · exact .inr rfl
  · have hlen := PowerTwo.build_length (σ := σ) (s := s) s.rands ps none hl (by simp)
    refine formed_and (forall₂_of_get ?_ fun i t r ht hr => ?_)
    · rw [List.length_map, ha, hlen]; rfl
    · obtain ⟨p, x, bit, _, _, _, rfl⟩ := PowerTwo.build_get _ _ _ _ _ ht
      rw [List.getElem?_map] at hr
      obtain ⟨a, hai, rfl⟩ := Option.map_eq_some_iff.mp hr
      have h2 := ha2 a (List.mem_of_getElem? hai)
      refine .any false _ _ (.list [.list [.int a.2.1], .list [.int a.2.2]]) a.1
        (fun i => if i = 0 then .list [.int a.2.1] else .list [.int a.2.2]) rfl rfl
        (by simpa [PowerTwo.clauses] using h2) (fun i hi => ?_) fun i t ht => ?_
      · simp only [PowerTwo.clauses, List.length_cons, List.length_nil] at hi
        match i, hi with
        | 0, _ => rfl
        | 1, _ => rfl
      · match i with
        | 0 =>
          simp only [PowerTwo.clauses, List.getElem?_cons_zero, Option.some.injEq] at ht
          subst ht
          exact .rep _ _ [a.2.1] (.inl rfl) rfl
        | 1 =>
          simp only [PowerTwo.clauses, List.getElem?_cons_succ, List.getElem?_cons_zero, Option.some.injEq] at ht
          subst ht
          exact .rep _ _ [a.2.2] (.inl rfl) rfl
        | n + 2 => simp [PowerTwo.clauses] at ht

/-- **C73** `BBSPlusSignatureStmt`: the precommitment is any two points of `G1`, the responses any numbers. -/
theorem C73_signature (env : Env E) (σ : Store) (P : Pairing E) (s : BBS E) (gen : E) (hP : s.P = P)
    (hk : GoodKey P s.pk) (hord : P.order ≠ 0) (hvars : 3 ≤ s.vars.length)
    (hgens : s.vars.length ≤ s.pk.generators.length) (a1 a2 : Pt E) (h1 : a1.grp = P.G1) (h2 : a2.grp = P.G1)
    (c x1 x2 y1 y2 y3 : Int) (zs : List Int) (hz : zs.length = s.vars.length + 2) (hash : List UInt8) (msg : String) :
    Decides (verify env σ (s.stmt gen false) ⟨c, .list [.list [.int x1, .int x2], .list [.int y1, .int y2, .int y3],
      .list (zs.map .int)], .dict [("A1", .pt a1), ("A2", .pt a2)], hash⟩ msg) := by
  obtain ⟨ve, vs, vm, hv, hvm⟩ : ∃ ve vs vm, s.vars = ve :: vs :: vm ∧ 1 ≤ vm.length := by
    match hs : s.vars with
    | [] => simp [hs] at hvars
    | [_] => simp [hs] at hvars
    | [_, _] => simp [hs] at hvars
    | ve :: vs :: x :: vm => exact ⟨ve, vs, x :: vm, rfl, by simp⟩
  obtain ⟨g0, g1, g2, gs, hg⟩ : ∃ g0 g1 g2 gs, s.pk.generators = g0 :: g1 :: g2 :: gs := by
    match hs : s.pk.generators with
    | [] => rw [hs] at hgens; simp only [List.length_nil] at hgens; omega
    | [_] => rw [hs] at hgens; simp only [List.length_cons, List.length_nil] at hgens; omega
    | [_, _] => rw [hs] at hgens; simp only [List.length_cons, List.length_nil] at hgens; omega
    | g0 :: g1 :: g2 :: gs => exact ⟨g0, g1, g2, gs, rfl⟩
  have hl : vm.length ≤ gs.length + 1 := by simp [hv, hg] at hgens; omega
  refine C73_decides env σ _ _ _ msg (by simp) (by simp) (.ext _ _ _
    (BBS.construct_of hP hk rfl rfl hg hv hvm hl h1 h2) (.inl rfl)) (BBS.built_solid hk hord hg hl h1) ?_
  refine formed_and (.cons (.rep _ _ [x1, x2] (.inl rfl) rfl) (.cons (.rep _ _ [y1, y2, y3] (.inl rfl) rfl)
    (.cons (.rep _ _ zs (.inl rfl) ?_) .nil)))
  simp [hz, hv]

/-- **C73** The form matters: on every statement without extended parts, a proof with the right hash but with `None`
for its responses is not refused; `verify()` raises `TypeError`. -/
theorem C73_malformed (env : Env E) (σ : Store) (k : Core E) (hs : Solid k) (id : PId E)
    (hid : Tree.proofId σ (embed k) = .ok id) (c : Int) (msg : String) :
    verify env σ (embed k) ⟨c, .none, .none, env.digest id⟩ msg = .error .typeError := by
  obtain ⟨h1, h2, h3⟩ := view_embed k
  have hcons : ∀ (k : Core E), Solid k → Tree.consistency σ k .none [] = .error .typeError := by
    intro k hs
    cases k with
    | leaf s =>
      simp only [Solid] at hs
      simp only [Tree.consistency, StmtOps.consistency]
      cases hv : s.secretVars with
      | nil => rw [hv] at hs; exact absurd (List.length_eq_zero_iff.mp hs.1.symm) hs.2.1
      | cons x xs => rfl
    | and b ts =>
      simp only [Solid] at hs
      match ts, hs with
      | t :: ts, _ => simp only [Tree.consistency, Tree.consistencyAnd]; rfl
    | or b ts =>
      simp only [Solid] at hs
      match ts, hs with
      | t :: ts, _ => simp only [Tree.consistency, Tree.consistencyOr]; rfl
  unfold verify
  have : digestPrecommitment σ (Tree.freshVerifier (embed k)) .none = .ok (embed k) := by
    simp [digestPrecommitment, Val.isNone, h2]
  simp only [this, bind_ok, checkStatement, hid, ne_eq, not_true_eq_false, if_false, preVerification, h3]
  rw [h1.consistency, hcons k hs]
  rfl

/-! ### Cases -/

/-- A proof of the right form about a disjunction: two sub-challenges, two answers. -/
example : Solid (E := ZMod 7) (.or false [.leaf Ex.rep1, .leaf Ex.rep2]) ∧
    Formed (E := ZMod 7) (.or false [.leaf Ex.rep1, .leaf Ex.rep2])
      (.tuple [.list [.int 5, .int (-9)], .list [.list [.int 1, .int 4], .list [.int 100]]]) := by
  refine ⟨by simp [Solid, SolidL, Ex.rep1, Ex.rep2, Ex.P, Ex.G], .any _ _ _ (.list [.list [.int 1, .int 4],
    .list [.int 100]]) [5, -9] (fun i => if i = 0 then .list [.int 1, .int 4] else .list [.int 100]) rfl rfl
    (by simp) (fun i hi => ?_) fun i t ht => ?_⟩
  · match i, hi with
    | 0, _ => rfl
    | 1, _ => rfl
  · match i with
    | 0 =>
      simp only [List.getElem?_cons_zero, Option.some.injEq] at ht
      subst ht
      exact .rep _ _ [1, 4] (.inl rfl) rfl
    | 1 =>
      simp only [List.getElem?_cons_succ, List.getElem?_cons_zero, Option.some.injEq] at ht
      subst ht
      exact .rep _ _ [100] (.inl rfl) rfl
    | n + 2 => simp at ht

/-- Its sub-challenges do not add up to the challenge, so it is refused. -/
example : verify (Ex.env 3) Ex.σ (embed (.or false [.leaf Ex.rep1, .leaf Ex.rep2]))
    ⟨3, .tuple [.list [.int 5, .int (-9)], .list [.list [.int 1, .int 4], .list [.int 100]]], .none, []⟩ "" =
    .error .inconsistentChallenge := by rfl

/-- The hypotheses on the statements of the library are met by those of the other examples. -/
example (b : Bool) : (∀ p ∈ [(exNe b).lhs0, (exNe b).lhs1, (exNe b).h], p.grp = (exNe b).g.grp) ∧
    (exNe b).g.grp.order ≠ 0 := by cases b <;> decide

example : GoodKey exPairing exBBS.pk ∧ exPairing.order ≠ 0 ∧ 3 ≤ exBBS.vars.length ∧
    exBBS.vars.length ≤ exBBS.pk.generators.length := ⟨exKey.good, by decide, by decide, by decide⟩

/-- A statement about two bits. -/
def exTwoBits : PowerTwo (ZMod 7) := ⟨Ex.P 1, Ex.P 1, Ex.P 3, 0, 1, false, [2, 3]⟩

example : exTwoBits.isProver = false ∧ 2 ≤ exTwoBits.numBits ∧ exTwoBits.com.grp = exTwoBits.g.grp ∧
    exTwoBits.h.grp = exTwoBits.g.grp ∧ exTwoBits.g.grp.order ≠ 0 ∧ [Ex.P 2, Ex.P 6].length = exTwoBits.numBits := by
  decide

/-- A proof without responses. -/
example : verify (Ex.env 3) Ex.σ (embed (.and false [.leaf Ex.rep1, .leaf Ex.rep2])) ⟨3, .none, .none, []⟩ "" =
    .error .typeError := by rfl

end Zksk.Props
