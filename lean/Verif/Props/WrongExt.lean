import Verif.Lemmas.WrongExt
import Verif.Lemmas.BBSRun
import Verif.Lemmas.PowerTwoRun
import Verif.Props.NotEqual
import Verif.Props.Range
import Verif.Props.Library
import Verif.Props.Shared
import Verif.Props.AliasProver

/-! # C99: the primitives of the library proved with wrong values -/

set_option linter.unusedSectionVars false

namespace Zksk.Props

open Spec

variable {E : Type} [AddCommGroup E] [DecidableEq E]

/-- What `verify()` says about the proof of `prove()`, in toy runs. -/
def Ex.proveVerify (env : Env (ZMod 7)) (t tv : Stmt (ZMod 7)) (d : Dict Int) (w : World) (σv : Store) : Except Err Bool :=
  match prove (LeafProver (ZMod 7)) env t d "" w with
  | .ok ((nizk, _), _) => verify env σv tv nizk ""
  | .error e => .error e

/-- Helper: a verifier's object for a single extended statement. -/
private theorem leaf_for {σv : Store} {tv : Stmt E} {s : Ext E} (h : VerifierFor σv tv (.leaf (.ext s))) :
    ∃ sv, tv = .leaf (.ext sv) ∧ LeafFor σv (.ext sv) (.ext s) := by
  cases h with
  | leaf a _ h =>
    cases a with
    | dlrep a => exact h.elim
    | ext sv => exact ⟨sv, rfl, h⟩

/-- **C99** `DLNotEqual` where the two discrete logarithms are the same, `lhs1 = x h`: whatever `prove()` returns,
`verify()` does not return `True`. -/
theorem C99_equal (env : Env E) (s : NotEqual E) (t' tv : Stmt E) (d : Dict Int) (w w' : World) (msg : String)
    (nizk : NIZK E) (σv : Store) (x : Int) (hgrp : ∀ p ∈ [s.lhs0, s.lhs1, s.h], p.grp = s.g.grp)
    (hord : s.g.grp.order ≠ 0) (hpriv : s.x ≠ s.alpha ∧ s.x ≠ s.beta)
    (hx : (updateSecretValues w.store d).value s.x = some x) (hwrong : s.lhs1.val = x • s.h.val)
    (h : prove (LeafProver E) env s.stmt d msg w = .ok ((nizk, t'), w')) (hf : VerifierFor σv tv s.stmt) :
    verify env σv tv nizk msg ≠ .ok true := by
  intro hv
  obtain ⟨sv, rfl, hl⟩ := leaf_for hf
  obtain ⟨w1, h1, _⟩ := ext_nizk h
  have hh : s.lhs1.grp = s.h.grp := by rw [hgrp s.lhs1 (by simp), hgrp s.h (by simp)]
  have h1' : s.precommit _ = _ := h1
  rw [NotEqual.precommit_of hh hpriv hord hx] at h1'
  injection h1' with h1'
  rw [Prod.mk.injEq] at h1'
  have hval := (ext_wrong h (by rw [← h1'.1]; simp) hl hv).1
  have hval' : s.validate nizk.precommitment = .ok () := hval
  rw [← h1'.1] at hval'
  simp [NotEqual.validate, NotEqual.blinded, hwrong, Grp.inf, hgrp s.h (by simp)] at hval'

/-- The hypotheses are met by `2 = x 1`, `6 ≠ x 3` and `x = 2`: the verifier raises the exception of `validate()`. -/
example (bind : Bool) : (∀ p ∈ [(exEqual bind).lhs0, (exEqual bind).lhs1, (exEqual bind).h], p.grp = (exEqual bind).g.grp) ∧
    (exEqual bind).g.grp.order ≠ 0 ∧ ((exEqual bind).x ≠ (exEqual bind).alpha ∧ (exEqual bind).x ≠ (exEqual bind).beta) ∧
    (updateSecretValues exNeStore [(2, 2)]).value (exEqual bind).x = some 2 ∧
    (exEqual bind).lhs1.val = (2 : Int) • (exEqual bind).h.val ∧
    VerifierFor exNoValues (exEqual bind).stmt (exEqual bind).stmt ∧
    Ex.proveVerify exHash (exEqual bind).stmt (exEqual bind).stmt [(2, 2)] ⟨exNeStore, fun i => 3 * i + 1⟩ exNoValues =
      .error .validation := by
  refine ⟨?_, ?_, ?_, ?_, ?_, NotEqual.verifierFor _ _ _ _ _ _ _ _ _, ?_⟩ <;> cases bind <;> decide +kernel

/-- **C99** `DLNotEqual` with a value of `x` that is not the discrete logarithm of `lhs0`, in a group of prime order:
a proof that `prove()` returns and `verify()` accepts has a challenge that is zero modulo the order, or two different
commitments have the same Fiat-Shamir challenge. -/
theorem C99_notEqual (env : Env E) (s : NotEqual E) (t' tv : Stmt E) (d : Dict Int) (w w' : World) (msg : String)
    (nizk : NIZK E) (σv : Store) (x : Int) (hgrp : ∀ p ∈ [s.lhs0, s.lhs1, s.h], p.grp = s.g.grp)
    (hprime : s.g.grp.order.Prime) (htor : ∀ p ∈ [s.g, s.lhs0, s.h, s.lhs1], (s.g.grp.order : Int) • p.val = 0)
    (hab : s.alpha ≠ s.beta) (hpriv : s.x ≠ s.alpha ∧ s.x ≠ s.beta)
    (hd : d.Uniq (updateSecretValues w.store d)) (hda : ∀ e ∈ d, e.1 ≠ s.alpha ∧ e.1 ≠ s.beta)
    (hx : (updateSecretValues w.store d).value s.x = some x) (hwrong : s.lhs0.val ≠ x • s.g.val)
    (h : prove (LeafProver E) env s.stmt d msg w = .ok ((nizk, t'), w')) (hf : VerifierFor σv tv s.stmt)
    (hname : σv.name = w.store.name) (hv : verify env σv tv nizk msg = .ok true) :
    nizk.challenge % (s.g.grp.order : Int) = 0 ∨
      ∃ id com com', com ≠ com' ∧
        env.fiatShamir id nizk.precommitment com msg = .ok nizk.challenge ∧
        env.fiatShamir id nizk.precommitment com' msg = .ok nizk.challenge := by
  obtain ⟨sv, rfl, hl⟩ := leaf_for hf
  have hord : s.g.grp.order ≠ 0 := hprime.ne_zero
  obtain ⟨g1, g2, g3⟩ : s.lhs0.grp = s.g.grp ∧ s.lhs1.grp = s.g.grp ∧ s.h.grp = s.g.grp :=
    ⟨hgrp _ (by simp), hgrp _ (by simp), hgrp _ (by simp)⟩
  have hh : s.lhs1.grp = s.h.grp := by rw [g2, g3]
  obtain ⟨w1, h1, _⟩ := ext_nizk h
  have hpre := NotEqual.precommit_of (w := { w with store := updateSecretValues w.store d }) hh hpriv hord hx
  have h1' : s.precommit _ = _ := h1
  rw [hpre] at h1'
  injection h1' with h1'
  rw [Prod.mk.injEq] at h1'
  generalize hb : ((w.rng 0 % s.g.grp.order : Nat) : Int) = b at hpre h1'
  obtain ⟨hval, w2, k, i1, i2, i3⟩ := ext_wrong_free h (by rw [← h1'.1]; simp) hl hv hd
  have i1' : s.precommit _ = _ := i1
  rw [hpre] at i1'
  injection i1' with i1'
  rw [Prod.mk.injEq] at i1'
  obtain ⟨hn, rfl⟩ := i1'
  have i2' : s.construct _ _ = _ := i2
  rw [← hn] at i2'
  simp only at i2'
  rw [NotEqual.construct_of g1 hh] at i2'
  injection i2' with i2'
  subst i2'
  have hval' : s.validate nizk.precommitment = .ok () := hval
  rw [← hn] at hval'
  have hb0 : b % (s.g.grp.order : Int) ≠ 0 := by
    intro h0
    have hbz : b = 0 := by
      rw [← hb] at h0 ⊢
      have : w.rng 0 % s.g.grp.order < s.g.grp.order := Nat.mod_lt _ (Nat.pos_of_ne_zero hord)
      rw [Int.emod_eq_of_lt (by omega) (by exact_mod_cast this)] at h0
      exact h0
    rw [hbz] at hval'
    simp [NotEqual.validate, NotEqual.blinded, Grp.inf, g3] at hval'
  obtain ⟨v1, v2, v3⟩ := NotEqual.after_value (σ := updateSecretValues w.store d) (b := b) hx hab hpriv
  have hkey : ∀ y ∈ d.map Prod.fst, (s.after (updateSecretValues w.store d) x b).key y =
      (updateSecretValues w.store d).key y := by
    intro y hy
    refine NotEqual.after_key fun hm => ?_
    obtain ⟨e, he, rfl⟩ := List.mem_map.mp hy
    exact hm.elim (hda e he).1 (hda e he).2
  have hnm : (s.after (updateSecretValues w.store d) x b).name = w.store.name := updateSecretValues_name d w.store
  rcases i3 (wf_of_solid (NotEqual.built_solid hgrp hord _ _ g3)) (NotEqual.built_torsion hgrp htor _ _)
    (NotEqual.built_orFree _ _ _) (hnm.trans hname.symm) hkey (by
      intro r hr
      unfold NotEqual.built at hr
      cases hbind : s.bind
      · rw [hbind] at hr
        simp only [Bool.false_eq_true, if_false, reps, repsL, List.cons_append, List.nil_append, List.mem_cons,
          List.not_mem_nil, or_false] at hr
        rcases hr with rfl | rfl
        · exact ⟨rfl, by simp [v1, v2], by simp [Grp.inf, g1]⟩
        · exact ⟨rfl, by simp [v1, v2], by simp [NotEqual.blinded, hh]⟩
      · rw [hbind] at hr
        simp only [if_true, reps, repsL, List.cons_append, List.nil_append, List.mem_cons,
          List.not_mem_nil, or_false] at hr
        rcases hr with rfl | rfl | rfl
        · exact ⟨rfl, by simp [v1, v2], by simp [Grp.inf, g1]⟩
        · exact ⟨rfl, by simp [v1, v2], by simp [NotEqual.blinded, hh]⟩
        · exact ⟨rfl, by simp [v3], by simp [g1]⟩) with hm | hc
  · left
    by_contra hc
    have h0 := hm ⟨s.g.grp.inf, [s.g, s.lhs0], [s.alpha, s.beta],
      knownValues (s.after (updateSecretValues w.store d) x b) [s.alpha, s.beta] [], false⟩ (by
        unfold NotEqual.built; simp [reps, repsL])
    have t1 := htor s.g (by simp)
    have t2 := htor s.lhs0 (by simp)
    have m1 : ∀ (n : Int) (e : E), (s.g.grp.order : Int) • e = 0 → (n % (s.g.grp.order : Int)) • e = n • e :=
      fun n e he => smul_eq_of_dvd he ((Int.emod_emod_of_dvd _ dvd_rfl |> Int.emod_eq_emod_iff_emod_sub_eq_zero.mp |>
        Int.dvd_of_emod_eq_zero))
    have k1 : valueOf ((s.after (updateSecretValues w.store d) x b).key s.alpha) = x * b % (s.g.grp.order : Int) := by
      simp [valueOf, Store.key, v1]
    have k2 : valueOf ((s.after (updateSecretValues w.store d) x b).key s.beta) = -b % (s.g.grp.order : Int) := by
      simp [valueOf, Store.key, v2]
    simp only [miss, List.zipWith_cons_cons, List.zipWith_nil_right, List.sum_cons, List.sum_nil, add_zero, k1, k2,
      Grp.inf] at h0
    rw [m1 _ _ t1, m1 _ _ t2] at h0
    have e : (0 : E) - ((x * b) • s.g.val + -b • s.lhs0.val) = b • (s.lhs0.val - x • s.g.val) := by module
    rw [e] at h0
    have hq : (s.g.grp.order : Int) • (s.lhs0.val - x • s.g.val) = 0 := by
      rw [smul_sub, t2, smul_comm, t1]; simp
    have h2 := zero_of_prime hprime hc (by rw [smul_comm, hq, smul_zero]) h0
    have h3 := zero_of_prime hprime hb0 hq h2
    exact hwrong (sub_eq_zero.mp h3)
  · exact .inr hc

/-- The hypotheses are met by `2 = x 1`, `5 ≠ x 3` and `x = 3`: rejected with a toy hash function, accepted with the challenge 7. -/
example (bind : Bool) : (∀ p ∈ [(exNe bind).lhs0, (exNe bind).lhs1, (exNe bind).h], p.grp = (exNe bind).g.grp) ∧
    (exNe bind).g.grp.order.Prime ∧
    (∀ p ∈ [(exNe bind).g, (exNe bind).lhs0, (exNe bind).h, (exNe bind).lhs1],
      ((exNe bind).g.grp.order : Int) • p.val = 0) ∧
    (exNe bind).alpha ≠ (exNe bind).beta ∧ ((exNe bind).x ≠ (exNe bind).alpha ∧ (exNe bind).x ≠ (exNe bind).beta) ∧
    Dict.Uniq (updateSecretValues exNeStore [(2, 3)]) [((2 : Sec), (3 : Int))] ∧
    (∀ e ∈ [((2 : Sec), (3 : Int))], e.1 ≠ (exNe bind).alpha ∧ e.1 ≠ (exNe bind).beta) ∧
    (updateSecretValues exNeStore [(2, 3)]).value (exNe bind).x = some 3 ∧
    (exNe bind).lhs0.val ≠ (3 : Int) • (exNe bind).g.val ∧ VerifierFor exNoValues (exNe bind).stmt (exNe bind).stmt ∧
    Ex.proveVerify exHash (exNe bind).stmt (exNe bind).stmt [(2, 3)] ⟨exNeStore, fun i => 3 * i + 1⟩ exNeStore = .ok false ∧
    Ex.proveVerify (Ex.env 7) (exNe bind).stmt (exNe bind).stmt [(2, 3)] ⟨exNeStore, fun i => 3 * i + 1⟩ exNeStore = .ok true := by
  refine ⟨?_, (by decide : Nat.Prime 7), ?_, ?_, ?_, by simp only [Dict.Uniq]; decide, ?_, ?_, ?_, NotEqual.verifierFor _ _ _ _ _ _ _ _ _, ?_, ?_⟩ <;>
    cases bind <;> decide +kernel

/-- **C99** `PowerTwoRangeStmt` with values of `x` and of the randomizer that do not open the commitment: whatever
`prove()` returns, `verify()` does not return `True`. -/
theorem C99_range (env : Env E) (s : PowerTwo E) (t' tv : Stmt E) (d : Dict Int) (w w' : World) (msg : String)
    (nizk : NIZK E) (σv : Store) (x r : Int) (hp : s.isProver = true) (hh : s.h.grp = s.g.grp)
    (hord : s.g.grp.order ≠ 0) (htor : (s.g.grp.order : Int) • s.h.val = 0) (hnd : s.rands.Nodup)
    (hr : s.r ∉ s.rands) (hx : (updateSecretValues w.store d).value s.x = some x)
    (hrv : (updateSecretValues w.store d).value s.r = some r) (hwrong : s.com.val ≠ x • s.g.val + r • s.h.val)
    (h : prove (LeafProver E) env s.stmt d msg w = .ok ((nizk, t'), w')) (hf : VerifierFor σv tv s.stmt) :
    verify env σv tv nizk msg ≠ .ok true := by
  intro hv
  obtain ⟨sv, rfl, hl⟩ := leaf_for hf
  obtain ⟨w1, h1, _⟩ := ext_nizk h
  have h1' : s.precommit _ = _ := h1
  obtain ⟨g1, g2⟩ := PowerTwo.precommit_wrong hp hh hord htor hnd hr hx hrv h1' hwrong
  exact g2 (ext_wrong h g1 hl hv).1

/-- The verifier's object for `exThree`. -/
def exWrongThreeV : PowerTwo (ZMod 7) := { exThree with isProver := false }

/-- The hypotheses are met by a commitment to `x = 3` with the randomizer 4 (`1 = 3·1 + 4·3`), proved with `x = 2`: the
verifier raises the exception of `validate()`. -/
example : exThree.isProver = true ∧ exThree.h.grp = exThree.g.grp ∧ exThree.g.grp.order ≠ 0 ∧
    (exThree.g.grp.order : Int) • exThree.h.val = 0 ∧ exThree.rands.Nodup ∧ exThree.r ∉ exThree.rands ∧
    (updateSecretValues exLibStore [(1, 2)]).value exThree.x = some 2 ∧
    (updateSecretValues exLibStore [(1, 2)]).value exThree.r = some 4 ∧
    exThree.com.val ≠ (2 : Int) • exThree.g.val + (4 : Int) • exThree.h.val ∧
    VerifierFor exNoValues exWrongThreeV.stmt exThree.stmt ∧
    Ex.proveVerify exHash exThree.stmt exWrongThreeV.stmt [(1, 2)] ⟨exLibStore, fun i => 3 * i + 1⟩ exNoValues =
      .error .validation := by
  refine ⟨rfl, rfl, by decide, by decide, by decide, by decide, by decide, by decide, by decide,
    .leaf _ _ (PowerTwo.leafFor (s := exThree) (s' := exWrongThreeV) rfl rfl rfl rfl _ (by decide) _ _ rfl rfl), ?_⟩
  decide +kernel

/-- **C99** `RangeStmt` (the composed range proof) with values of `x` and of the randomizer that do not open the
commitment: whatever `prove()` returns, `verify()` does not return `True`. The value of `x` is that at the construction of
the statement, which fixes the values of the two shifted secrets at the addresses `next` and `next + 1`. -/
theorem C99_rangeStmt (env : Env E) (σ σ1 : Store) (com g h : Pt E) (a b xv rv r0 : Int) (x r : Sec) (next : Nat)
    (t t' tv : Stmt E) (hs : rangeStmt σ com g h a b x r next = .ok (σ1, t))
    (hord : g.grp.order ≠ 0) (htor : (g.grp.order : Int) • h.val = 0) (hfresh : r < next)
    (hx : σ.value x = some xv) (hr : σ.value r = some r0)
    (d : Dict Int) (hd : ∀ kv ∈ d, kv.1 ≠ next) (msg : String) (w w' : World) (nizk : NIZK E) (σv : Store)
    (hw : w.store.value next = σ1.value next) (hrv : (updateSecretValues w.store d).value r = some rv)
    (hwrong : com.val ≠ xv • g.val + rv • h.val)
    (hp : prove (LeafProver E) env t d msg w = .ok ((nizk, t'), w')) (hf : VerifierFor σv tv t) :
    verify env σv tv nizk msg ≠ .ok true := by
  intro hv
  obtain ⟨c, com1, com2, _, hh, rfl, rfl, rfl, rfl, rfl⟩ := rangeStmt_ok hs
  obtain ⟨w1, v1, w1', k1, w2, v2, w2', k2, e1, e2, _, _, _, _, e3⟩ :=
    prove_two_ext (PowerTwo.toAnd _) (PowerTwo.toAnd _) hp
  have hk1 : (next : Nat) ∉ d.map Prod.fst := by
    intro hm
    obtain ⟨kv, h1, h2⟩ := List.mem_map.mp hm
    exact hd kv h1 h2
  have hne : (next : Nat) ≠ next + 1 := Nat.ne_of_lt (Nat.lt_succ_self _)
  have n1 : (r : Nat) ≠ next := Nat.ne_of_lt hfresh
  have n2 : (r : Nat) ≠ next + 1 := Nat.ne_of_lt (Nat.lt_succ_of_lt hfresh)
  have f1 : w1.store.value next = some (xv - a) := by
    rw [e1, (updateSecretValues_value d _ w.store next).2 hk1, hw]
    simp only [rangeStore, hx, Store.setValue]
    rw [if_neg hne, if_pos trivial]
  have f2 : (rangeStore σ a b x next (next + 1)).value next = some (xv - a) := by
    simp only [rangeStore, hx, Store.setValue]
    rw [if_neg hne, if_pos trivial]
  have f3 : (rangeStore σ a b x next (next + 1)).value r = some r0 := by
    simp only [rangeStore, hx, Store.setValue]
    rw [if_neg n2, if_neg n1, hr]
  obtain ⟨g1, g2⟩ := PowerTwo.precommit_wrong (x := xv - a) (r := rv) (by simp [mkPowerTwo, f2, f3]) hh hord htor
    (by simp only [mkPowerTwo, freshSecs]; exact List.nodup_range.map fun _ _ => by simp) (by
      simp only [mkPowerTwo, mem_freshSecs]
      exact fun hm => Nat.lt_irrefl next
        (Nat.lt_of_le_of_lt (Nat.le_trans (Nat.le_add_right next 2) hm.1) hfresh))
    f1 (by rw [e1]; exact hrv) e2 (by
      simp only [mkPowerTwo]
      intro he
      refine hwrong ?_
      rw [sub_eq_iff_eq_add] at he
      rw [he]; module)
  generalize hT : (Tree.and false _ : Stmt E) = T at hf
  cases hf with
  | leaf => cases hT
  | any => cases hT
  | all b b' ts us hlen hall =>
    cases hT
    match ts, hlen with
    | [t0, t1, t2], _ =>
      have q0 := hall 0 _ _ rfl rfl
      obtain ⟨s1, rfl, q1⟩ := leaf_for (hall 1 _ _ rfl rfl)
      obtain ⟨s2, rfl, q2⟩ := leaf_for (hall 2 _ _ rfl rfl)
      cases q0 with
      | leaf l _ q0 =>
        have hall : ([Val.none, v1, v2].all Val.isNone) = false := by
          cases v1 <;> simp_all [Val.isNone]
        have hn : nizk.precommitment = .list [.none, v1, v2] := by
          have := e3
          unfold PTree.andPrecommitment at this
          rw [hall] at this
          exact this
        have := (verify_two_ext hv hn).1
        rw [q1.2.1] at this
        exact g2 this

/-- The statement that 5 is a commitment to a number in `[1, 4)`, in the heap `σ`. -/
def exWrongFive (σ : Store) : Except Err (Store × Stmt (ZMod 7)) := rangeStmt σ (Ex.P 5) (Ex.P 1) (Ex.P 2) 1 4 0 1 3

/-- The hypotheses are met by `x = 2`, `r = 3`, since `5 ≠ 2·1 + 3·2`: the verifier raises the exception of
`validate()`. -/
example : ∃ σ1 t σv tv, exWrongFive Ex.σ = .ok (σ1, t) ∧ exWrongFive exNoValues = .ok (σv, tv) ∧
    (Ex.P 1).grp.order ≠ 0 ∧ ((Ex.P 1).grp.order : Int) • (Ex.P 2).val = 0 ∧ Ex.σ.value 0 = some 2 ∧ Ex.σ.value 1 = some 3 ∧
    (updateSecretValues σ1 []).value 1 = some 3 ∧ (Ex.P 5).val ≠ (2 : Int) • (Ex.P 1).val + (3 : Int) • (Ex.P 2).val ∧
    VerifierFor σv tv t ∧ Ex.proveVerify exHash t tv [] ⟨σ1, fun i => 3 * i + 1⟩ σv = .error .validation := by
  refine ⟨_, _, _, _, rfl, rfl, by decide, by decide, rfl, rfl, rfl, by decide, .all _ _ _ _ rfl fun i t u ht hu => ?_,
    by decide +kernel⟩
  match i with
  | 0 =>
    obtain rfl := Option.some.inj ht
    obtain rfl := Option.some.inj hu
    exact .leaf _ _ ⟨rfl, rfl, rfl⟩
  | 1 =>
    obtain rfl := Option.some.inj ht
    obtain rfl := Option.some.inj hu
    refine .leaf _ _ (PowerTwo.leafFor ?_ ?_ ?_ ?_ _ ?_ _ _ rfl rfl) <;> first | rfl | decide
  | 2 =>
    obtain rfl := Option.some.inj ht
    obtain rfl := Option.some.inj hu
    refine .leaf _ _ (PowerTwo.leafFor ?_ ?_ ?_ ?_ _ ?_ _ _ rfl rfl) <;> first | rfl | decide
  | i + 3 => simp at ht

/-- **C99** `BBSPlusSignatureStmt` with values `e`, `s` and messages that do not satisfy the equation of the signature:
a proof that `prove()` returns and `verify()` accepts has a challenge that is zero modulo the order, or two different
commitments have the same Fiat-Shamir challenge, or the value for `e` is not that of the signature and the randomized
`A1` of the precommitment happens to be neutral. -/
theorem C99_signature (env : Env E) (P : Pairing E) (s : BBS E) (sig : Signature E) (gen : E) (flag : Bool)
    (e' s' : Int) (ms : List Int) (t' tv : Stmt E) (d : Dict Int) (w w' : World) (msg : String) (nizk : NIZK E)
    (σv : Store) (hP : s.P = P) (hk : GoodKey P s.pk) (hprime : P.order.Prime)
    (htor : ∀ g ∈ s.pk.generators, (P.order : Int) • g.val = 0) (hh0 : (P.order : Int) • s.pk.h0.val = 0)
    (hA : (P.order : Int) • sig.A.val = 0) (hsig : s.signature = some sig)
    (hvals : s.vars.map (updateSecretValues w.store d).value = (e' :: s' :: ms).map some)
    (hnd : [s.r1, s.r2, s.delta1, s.delta2].Nodup) (hpriv : ∀ x ∈ [s.r1, s.r2, s.delta1, s.delta2], x ∉ s.vars)
    (hd : d.Uniq (updateSecretValues w.store d)) (hda : ∀ e ∈ d, e.1 ∉ [s.r1, s.r2, s.delta1, s.delta2])
    (hwrong : ¬ SigEq P s.pk sig.A.val e' s' ms)
    (h : prove (LeafProver E) env (s.stmt gen flag) d msg w = .ok ((nizk, t'), w'))
    (hf : VerifierFor σv tv (s.stmt gen flag)) (hname : σv.name = w.store.name)
    (hv : verify env σv tv nizk msg = .ok true) :
    nizk.challenge % (P.order : Int) = 0 ∨
      (¬ (P.order : Int) ∣ e' - sig.e ∧ ∃ a2, nizk.precommitment = .dict [("A1", .pt ⟨P.G1, 0⟩), ("A2", a2)]) ∨
      ∃ id com com', com ≠ com' ∧
        env.fiatShamir id nizk.precommitment com msg = .ok nizk.challenge ∧
        env.fiatShamir id nizk.precommitment com' msg = .ok nizk.challenge := by
  obtain ⟨sv, rfl, hl⟩ := leaf_for hf
  obtain ⟨w0, h1, _⟩ := ext_nizk h
  have h1' : s.precommit _ = _ := h1
  obtain ⟨b0, b1, b2, a1, a2, r1, r2, hb0, hb1, hb2, ha1, ha2, hn, hst⟩ := BBS.precommit_form hsig h1'
  clear hst
  obtain ⟨_, w1, k, i1, i2, i3⟩ := ext_wrong_free h (by rw [hn]; simp) hl hv hd
  have i1' : s.precommit _ = _ := i1
  have i2' : s.construct _ _ = _ := i2
  obtain ⟨b0', b1', b2', a1', a2', r1, r2, hb0', hb1', hb2', ha1', ha2', hn', hst⟩ := BBS.precommit_form hsig i1'
  obtain ⟨a1'', a2'', g0, g1, g2, gs, ve, vs, vm, e1, e2, hg, hv', hvm, hlen, ga1, ga2, rfl⟩ :=
    BBS.construct_inv hP hk i2'
  have eq1 : a1'' = a1' := by
    rw [hn'] at e1
    have : (Except.ok (.pt a1') : Except Err (Val E)) = .ok (.pt a1'') := e1
    cases this; rfl
  have eq2 : a2'' = a2' := by
    rw [hn'] at e2
    have : (Except.ok (.pt a2') : Except Err (Val E)) = .ok (.pt a2'') := e2
    cases this; rfl
  subst eq1 eq2
  obtain ⟨k0, k1, k2⟩ : g0.grp = P.G1 ∧ g1.grp = P.G1 ∧ g2.grp = P.G1 := by
    have := hk.g1
    rw [hg] at this
    exact ⟨this _ (by simp), this _ (by simp), this _ (by simp)⟩
  have j0 : b0' = g0 := by
    unfold BBS.bases at hb0'; rw [hg, hv'] at hb0'; simpa using hb0'.symm
  have j1 : b1' = g1 := by
    unfold BBS.bases at hb1'; rw [hg, hv'] at hb1'; simpa using hb1'.symm
  have j2 : b2' = g2 := by
    unfold BBS.bases at hb2'
    rw [hg, hv'] at hb2'
    simp only [List.length_cons] at hb2'
    rw [List.getElem?_take_of_lt (by omega)] at hb2'
    simpa using hb2'.symm
  subst j0 j1 j2
  rw [pt_add_of (by rw [Pt.smul, Pt.smul, k1, k2])] at ha1'
  injection ha1' with ha1'
  have hAg : (Pt.smul r1 b2').grp = sig.A.grp := by
    by_contra hne
    unfold Pt.add at ha2'
    rw [if_neg hne] at ha2'
    cases ha2'
  rw [pt_add_of hAg] at ha2'
  injection ha2' with ha2'
  rw [k0] at hst
  have hord : (b0'.grp.order : Int) = P.order := by rw [k0]; rfl
  simp only [List.nodup_cons, List.mem_cons, List.not_mem_nil, or_false, not_or,
    List.nodup_nil, and_true] at hnd
  obtain ⟨⟨n1, n2, n3⟩, ⟨n4, n5⟩, n6, _⟩ := hnd
  have hframe : ∀ x, x ∉ [s.r1, s.r2, s.delta1, s.delta2] → w1.store.key x = (updateSecretValues w.store d).key x := by
    intro x hx
    simp only [List.mem_cons, List.not_mem_nil, or_false, not_or] at hx
    rw [hst]
    simp [Store.key, Store.setValue, hx.1, hx.2.1, hx.2.2.1, hx.2.2.2]
  have x1 : w1.store.value s.r1 = some r1 := by
    rw [hst]; simp [Store.setValue, n1, n2, n3]
  have x2 : w1.store.value s.r2 = some r2 := by
    rw [hst]; simp [Store.setValue, n4, n5]
  have x3 : w1.store.value s.delta1 = some (r1 * sig.e % (P.order : Int)) := by
    rw [hst]; simp [Store.setValue, n6, Pairing.G1]
  have x4 : w1.store.value s.delta2 = some (r2 * sig.e % (P.order : Int)) := by
    rw [hst]; simp [Store.setValue, Pairing.G1]
  have hout : ∀ x ∈ s.vars, w1.store.key x = (updateSecretValues w.store d).key x := fun x hx =>
    hframe x fun hm => hpriv x hm hx
  have hsome : ∀ x, x ∈ s.vars → (w1.store.value x).isSome := by
    intro x hx
    have e : w1.store.value x = (updateSecretValues w.store d).value x := congrArg Prod.snd (hout x hx)
    rw [e]
    have : (updateSecretValues w.store d).value x ∈ s.vars.map (updateSecretValues w.store d).value :=
      List.mem_map_of_mem hx
    rw [hvals] at this
    obtain ⟨n, _, hn⟩ := List.mem_map.mp this
    rw [← hn]; rfl
  rw [hv'] at hvals hout hsome
  simp only [List.map_cons, List.cons.injEq] at hvals
  have y1 : valueOf (w1.store.key s.r1) = r1 := by simp [valueOf, Store.key, x1]
  have y3 : valueOf (w1.store.key s.delta1) = r1 * sig.e % (P.order : Int) := by simp [valueOf, Store.key, x3]
  have y4 : valueOf (w1.store.key s.delta2) = r2 * sig.e % (P.order : Int) := by simp [valueOf, Store.key, x4]
  have x5 : valueOf (w1.store.key ve) = e' := by
    rw [hout ve (by simp)]; simp [valueOf, Store.key, hvals.1]
  have x6 : valueOf (w1.store.key vs) = s' := by
    rw [hout vs (by simp)]; simp [valueOf, Store.key, hvals.2.1]
  have x7 : vm.map (fun x => valueOf (w1.store.key x)) = ms := by
    have : vm.map (fun x => valueOf (w1.store.key x)) =
        (vm.map (updateSecretValues w.store d).value).map fun o => o.getD 0 := by
      rw [List.map_map]
      refine List.map_congr_left fun x hx => ?_
      rw [hout x (by simp [hx])]
      rfl
    rw [this, hvals.2.2, List.map_map]
    simp
  rw [hg] at htor
  have hmod : ∀ (r : Int) (g : E), (P.order : Int) • g = 0 →
      (r * sig.e % (P.order : Int)) • g = (r * sig.e) • g := by
    intro r g hgm
    rw [← sub_eq_zero, ← sub_smul]
    refine smul_of_dvd ?_ hgm
    have := Int.dvd_self_sub_emod (x := r * sig.e) (m := (P.order : Int))
    rw [← Int.neg_sub, Int.dvd_neg]
    exact this
  have t1 := htor b1' (by simp)
  have t2 := htor b2' (by simp)
  have ta1 : (P.order : Int) • a1''.val = 0 := by
    rw [← ha1']
    simp only [Pt.smul, smul_add]
    rw [smul_comm, t1, smul_comm, t2, smul_zero, smul_zero, add_zero]
  have hnm : w1.store.name = w.store.name := by
    rw [hst]; exact updateSecretValues_name d w.store
  have hcov : ∀ r ∈ reps (.and false (BBS.parts P s.pk w1.store s a1'' a2'' b0' b1' b2' gs ve vs vm) : Core E),
      r.secretValues = knownValues w1.store r.secretVars [] ∧
      (∀ x ∈ r.secretVars, (w1.store.value x).isSome) ∧ ∀ b ∈ r.bases, b.grp = r.lhs.grp := by
    intro r hr
    simp only [BBS.parts, reps, repsL, List.cons_append, List.nil_append, List.mem_cons,
      List.not_mem_nil, or_false] at hr
    rcases hr with rfl | rfl | rfl
    · exact ⟨rfl, by simp [x1, x2], by simp [k1, k2, ga1]⟩
    · refine ⟨rfl, ?_, by simp [k1, k2, ga1, Pt.smul]⟩
      intro x hx
      simp only [List.mem_cons, List.not_mem_nil, or_false] at hx
      rcases hx with rfl | rfl | rfl
      · simp [x3]
      · simp [x4]
      · exact hsome _ (by simp)
    · refine ⟨rfl, ?_, ?_⟩
      · intro x hx
        simp only [List.mem_cons] at hx
        rcases hx with rfl | rfl | rfl | rfl | hx
        · exact hsome _ (by simp)
        · simp [x1]
        · simp [x3]
        · exact hsome _ (by simp)
        · exact hsome _ (by simp [hx])
      · simp only [List.mem_cons]
        rintro p (rfl | rfl | rfl | rfl | hp)
        · rfl
        · rfl
        · rfl
        · rfl
        · obtain ⟨g, _, rfl⟩ := List.mem_map.mp (List.mem_of_mem_take hp)
          rfl
  rcases i3 (wf_of_solid (BBS.built_solid hk hprime.ne_zero hg hlen ga1)) (BBS.built_torsion hk hg (by rw [hg]; exact htor) hh0 ga1 ta1)
    BBS.built_orFree (hnm.trans hname.symm) (fun y hy => hframe y (by
      obtain ⟨e, he, rfl⟩ := List.mem_map.mp hy; exact hda e he)) hcov with hm | hc
  · by_cases hc : nizk.challenge % (P.order : Int) = 0
    · exact .inl hc
    refine .inr (.inl ?_)
    have z2 := hm _ (by simp only [BBS.parts, reps, repsL, List.cons_append, List.nil_append]; exact .tail _ (.head _))
    have z3 := hm _ (by simp only [BBS.parts, reps, repsL, List.cons_append, List.nil_append]; exact .tail _ (.tail _ (.head _)))
    simp only [miss, List.zipWith_cons_cons, List.zipWith_nil_right, List.sum_cons, List.sum_nil, add_zero, y3, y4, x5,
      Pt.smul] at z2
    rw [hmod r1 _ t1, hmod r2 _ t2] at z2
    have f2 : (0 : E) - ((r1 * sig.e) • b1'.val + ((r2 * sig.e) • b2'.val + e' • (-1 : Int) • a1''.val)) =
        (e' - sig.e) • a1''.val := by
      rw [← ha1']
      simp only [Pt.smul]
      module
    rw [f2] at z2
    have z2' := zero_of_prime hprime hc (by rw [smul_comm, ta1, smul_zero]) z2
    have tp : (P.order : Int) • P.e b2'.val s.pk.h0.val = 0 := by
      rw [← map_zsmul, hh0, map_zero]
    have f3 : miss w1.store ⟨⟨P.GT, P.e a2''.val s.pk.w.val + (-1 : Int) • P.e b0'.val s.pk.h0.val⟩,
        ⟨P.GT, (-1 : Int) • P.e a2''.val s.pk.h0.val⟩ :: ⟨P.GT, P.e b2'.val s.pk.w.val⟩ :: ⟨P.GT, P.e b2'.val s.pk.h0.val⟩ ::
        ⟨P.GT, P.e b1'.val s.pk.h0.val⟩ ::
        ((b2' :: gs).map fun g => (⟨P.GT, P.e g.val s.pk.h0.val⟩ : Pt E)).take vm.length,
        ve :: s.r1 :: s.delta1 :: vs :: vm, knownValues w1.store (ve :: s.r1 :: s.delta1 :: vs :: vm) [], false⟩ valueOf =
        (P.e sig.A.val (s.pk.w.val + e' • s.pk.h0.val) - P.e (b0'.val + s' • b1'.val + lin ms (b2' :: gs)) s.pk.h0.val) +
        (r1 * (e' - sig.e)) • P.e b2'.val s.pk.h0.val := by
      unfold miss
      rw [BBS.sum_three P s.pk (fun x => valueOf (w1.store.key x))]
      simp only [y1, y3, x5, x6, x7]
      rw [hmod r1 _ tp]
      rw [← ha2']
      simp only [Pt.smul, map_add, map_zsmul, AddMonoidHom.add_apply, AddMonoidHom.smul_apply]
      module
    rw [f3] at z3
    by_cases hdv : (P.order : Int) ∣ e' - sig.e
    · exfalso
      rw [smul_of_dvd (hdv.mul_left r1) tp, add_zero] at z3
      have z3' := zero_of_prime hprime hc (by
        rw [smul_sub, ← AddMonoidHom.smul_apply, ← map_zsmul, hA, map_zero, AddMonoidHom.zero_apply,
          ← map_zsmul, hh0, map_zero, sub_zero]) z3
      exact hwrong ⟨b0', b1', b2' :: gs, hg, sub_eq_zero.mp z3'⟩
    · refine ⟨hdv, .pt a2'', ?_⟩
      have ha0 := zero_of_prime hprime (fun h0 => hdv (Int.dvd_of_emod_eq_zero h0)) ta1 z2'
      rw [hn', show a1'' = ⟨P.G1, 0⟩ from by cases a1''; simp only at ga1 ha0; rw [ga1, ha0]]
  · exact .inr (.inr hc)

/-- The values `e = 1`, `s = 2` of `exSig` and the messages 4, 5 instead of 4, 6. -/
def exWrongSig : Dict Int := [(2, 1), (3, 2), (0, 4), (1, 5)]

/-- The hypotheses are met by `exSig` proved with a wrong message: rejected with a toy hash function, accepted with the
challenge 7. -/
example : GoodKey exPairing exBBS.pk ∧ exPairing.order.Prime ∧
    (∀ g ∈ exBBS.pk.generators, (exPairing.order : Int) • g.val = 0) ∧ (exPairing.order : Int) • exBBS.pk.h0.val = 0 ∧
    (exPairing.order : Int) • exSig.A.val = 0 ∧
    exBBS.vars.map (updateSecretValues exNames exWrongSig).value = ([1, 2, 4, 5] : List Int).map some ∧
    [exBBS.r1, exBBS.r2, exBBS.delta1, exBBS.delta2].Nodup ∧
    (∀ x ∈ [exBBS.r1, exBBS.r2, exBBS.delta1, exBBS.delta2], x ∉ exBBS.vars) ∧
    exWrongSig.Uniq (updateSecretValues exNames exWrongSig) ∧
    (∀ e ∈ exWrongSig, e.1 ∉ [exBBS.r1, exBBS.r2, exBBS.delta1, exBBS.delta2]) ∧
    ¬ SigEq exPairing exBBS.pk exSig.A.val 1 2 [4, 5] ∧
    VerifierFor exNames (({ exBBS with signature := none } : BBS (ZMod 7)).stmt 1 false) (exBBS.stmt 1 false) ∧
    Ex.proveVerify exHash (exBBS.stmt 1 false) (({ exBBS with signature := none } : BBS (ZMod 7)).stmt 1 false) exWrongSig
      ⟨exNames, fun i => 3 * i + 1⟩ exNames = .ok false ∧
    Ex.proveVerify (Ex.env 7) (exBBS.stmt 1 false) (({ exBBS with signature := none } : BBS (ZMod 7)).stmt 1 false) exWrongSig
      ⟨exNames, fun i => 3 * i + 1⟩ exNames = .ok true := by
  refine ⟨exKey.good, (by decide : Nat.Prime 7), by decide, by decide, by decide, by decide, by decide, by decide,
    by simp only [exWrongSig, Dict.Uniq]; decide, by decide, ?_,
    .leaf _ _ (BBS.leafFor rfl exKey.good _ _ _ none _ _ _ _ _ _ _ _), by decide +kernel, by decide +kernel⟩
  rintro ⟨g0, g1, gs, h1, h2⟩
  simp only [exBBS, exPk, List.cons.injEq] at h1
  obtain ⟨rfl, rfl, rfl⟩ := h1
  revert h2
  decide

end Zksk.Props
