import Verif.Lemmas.Outside
import Verif.Props.Range
import Verif.Lemmas.StmtComplete

/-! # C67: proofs forged through surplus sub-challenges -/

set_option linter.unusedSectionVars false

namespace Zksk.Props

open Spec

variable {E : Type} [AddCommGroup E] [DecidableEq E]

/-- **C67** What two accepted answers `r`, `r'` to the same commitment show, if nothing is known about their
form: exactly that the part of the statement outside all disjunctions is true. -/
theorem C67_exact (σ : Store) (t : Core E) (c c' Q : Int) (hs : Solid t) (hk : Killed Q t)
    (hc : IsCoprime (c - c') Q) :
    (∃ com r r', verifyResponse σ t com c r = .ok true ∧ verifyResponse σ t com c' r' = .ok true) ↔
      ∃ X, OutsideTrue σ X t := by
  constructor
  · rintro ⟨com, r, r', h, h'⟩
    obtain ⟨⟨ρ, ha⟩, he⟩ := verifyResponse_iff.mp h
    obtain ⟨⟨ρ', ha'⟩, he'⟩ := verifyResponse_iff.mp h'
    obtain ⟨u, q, huq⟩ := hc
    exact ⟨_, extract_outside t (wf_of_solid hs) hk u c c' r r' com ρ ρ' ⟨-q, by linarith⟩ ha ha' he he'⟩
  · rintro ⟨X, hX⟩
    exact ⟨zeroCommitment t, forgedResponses σ X c t, forgedResponses σ X c' t,
      verifyResponse_iff.mpr ⟨⟨_, (forged_run σ X c t hs hX).1⟩, (forged_run σ X c t hs hX).2⟩,
      verifyResponse_iff.mpr ⟨⟨_, (forged_run σ X c' t hs hX).1⟩, (forged_run σ X c' t hs hX).2⟩⟩

/-- `1 = x0·1 and (1 = x1·0 or 1 = x2·0)` in `ℤ/7ℤ`: false for all values. -/
def exHollow : Core (ZMod 7) :=
  .and false [.leaf ⟨Ex.P 1, [Ex.P 1], [0], [], false⟩,
    .or false [.leaf ⟨Ex.P 1, [Ex.P 0], [1], [], false⟩, .leaf ⟨Ex.P 1, [Ex.P 0], [2], [], false⟩]]

theorem exHollow_outside : OutsideTrue Ex.σ (fun _ => 1) exHollow := by
  refine .all _ _ fun t ht => ?_
  simp only [List.mem_cons, List.not_mem_nil, or_false] at ht
  rcases ht with rfl | rfl
  · exact .rep _ (.rep _ _ (by decide) (by decide))
  · exact .any _ _

/-- **C67** Whoever knows the secrets outside the disjunctions of a statement has an accepted proof, for every
statement (with or without extended parts), every precommitment that passes and every message.  Nothing is assumed
about the clauses of the disjunctions; the responses are given explicitly. -/
theorem C67_forgery (env : Env E) (σ : Store) (t : Stmt E) (v : Val E) (S : Skel E) (k : Core E)
    (X : Key → Int) (msg : String) (hd : DigestedTop σ t v S k) (hs : Solid k) (ho : OutsideTrue σ X k)
    (hv : ∀ s, v ≠ .str s) :
    ∃ c h, verify env σ t ⟨c, forgedResponses σ X c k, v, h⟩ msg = .ok true := by
  obtain ⟨t1, h1, h2, h3⟩ := digest_of_top hd
  obtain ⟨id, vs, hid, _⟩ := Tree.proofId_isOk (σ := σ) h3.1
  obtain ⟨b, hb⟩ := chunk_stmt env hv
  obtain ⟨c, hc⟩ : ∃ c, env.fiatShamir id v (zeroCommitment k) msg = .ok c := by
    unfold Env.fiatShamir Env.challengeInput
    rw [zero_chunk, hb]
    exact ⟨_, rfl⟩
  have hr := forged_run σ X c k hs ho
  refine ⟨c, env.digest id, ?_⟩
  exact (verify_iff env σ t _ msg true).mpr
    ⟨S, k, id, zeroCommitment k, _, c, hd, h3.proofId.mp hid, rfl, hr.1, hr.2, hc, by simp⟩

/-- The hypotheses of `C67_exact` are met by `exHollow`, which has an accepted proof by `C67_forgery` though it does
not hold for any values. -/
theorem C67_false_accepted (env : Env (ZMod 7)) (msg : String) :
    Solid exHollow ∧ Killed 7 exHollow ∧ IsCoprime (3 - 1 : Int) 7 ∧ (¬ ∃ X, Holds Ex.σ exHollow X) ∧
      ∃ nizk, verify env Ex.σ (embed exHollow) nizk msg = .ok true := by
  refine ⟨by simp [exHollow, Solid, SolidL, Ex.P, Ex.G], ?_, ⟨-3, 1, by norm_num⟩, ?_, ?_⟩
  · simp only [exHollow, Killed, KilledL]
    decide
  · rintro ⟨X, hX⟩
    cases hX with
    | all _ _ _ h =>
      have h1 := h (.or false _) (List.mem_cons_of_mem _ (List.mem_cons_self ..))
      cases h1 with
      | any _ _ _ X' t ht h =>
        simp only [List.mem_cons, List.not_mem_nil, or_false] at ht
        rcases ht with rfl | rfl <;>
        · cases h with
          | rep _ _ _ h =>
            simp [Ex.P] at h
            exact absurd h (by decide)
  · obtain ⟨c, h, hv⟩ := C67_forgery env Ex.σ (embed exHollow) .none _ exHollow (fun _ => 1) msg
      (.inl ⟨rfl, rfl, rfl⟩) (by simp [exHollow, Solid, SolidL, Ex.P, Ex.G]) exHollow_outside (by simp)
    exact ⟨_, hv⟩

/-- **C67** For every commitment whatsoever, the verifier's power-two range statement with `n` bits has an accepted
proof with exactly `n` bit commitments: `com, 0, …, 0`. -/
theorem C67_power_two (env : Env E) (s : PowerTwo E) (σ : Store) (msg : String)
    (hp : s.isProver = false) (hn : 2 ≤ s.numBits) (hc : s.com.grp = s.g.grp) (hh : s.h.grp = s.g.grp)
    (ho : s.g.grp.order ≠ 0) :
    ∃ nizk : NIZK E, nizk.precommitment =
        .dict [("Cs", .list (.pt s.com :: List.replicate (s.numBits - 1) (.pt s.g.grp.inf))), ("rand", .int 0)] ∧
      verify env σ s.stmt nizk msg = .ok true := by
  obtain ⟨k, h1, h2, h3, h4⟩ := PowerTwo.lone_ok σ hp hn hc hh ho (fun _ => 0)
  obtain ⟨c, h, hv⟩ := C67_forgery env σ s.stmt _ _ k (fun _ => 0) msg
    (.inr ⟨by simp, .ext _ _ _ h1 h2⟩) h3 h4 (by simp)
  exact ⟨_, by simp [PowerTwo.lone, List.map_replicate], hv⟩

/-- **C67** Whoever can open a commitment, to whatever value, has an accepted proof that the value lies in the
range `[a, b)`, for every range with more than two elements.  `σ` is the heap of the verifier, who does not know
the value. -/
theorem C67_range (env : Env E) (σ0 σ1 σ : Store) (com g h : Pt E) (a b : Int) (x r : Sec) (next : Nat)
    (t : Stmt E) (hab : 2 < b - a) (hx : σ0.value x = none) (hr : σ0.value r = none) (ho : g.grp.order ≠ 0)
    (hs : rangeStmt σ0 com g h a b x r next = .ok (σ1, t))
    (hkey : σ.key x ≠ σ.key r) (u v : Int) (hopen : com.val = u • g.val + v • h.val) (msg : String) :
    ∃ nizk : NIZK E, verify env σ t nizk msg = .ok true ∧
      ∀ i, i = 1 ∨ i = 2 → ∃ vi l es, nizk.precommitment.index i = .ok vi ∧ vi.lookup "Cs" = .ok l ∧
        l.elems = .ok es ∧ es.length = rangeBits a b := by
  obtain ⟨c, com1, com2, hc, hh, rfl, rfl, e1, e2, rfl⟩ := rangeStmt_ok hs
  set σ1 := rangeStore σ0 a b x next (next + 1) with hσ1
  set s1 := mkPowerTwo σ1 com1 g h next r (freshSecs (next + 2) (rangeBits a b)) with hs1
  set s2 := mkPowerTwo σ1 com2 g h (next + 1) r (freshSecs (next + 2 + rangeBits a b) (rangeBits a b)) with hs2
  let X : Key → Int := fun κ => if κ = σ.key x then u else v
  have hbits : 2 ≤ rangeBits a b := by
    by_contra hlt
    have := (rangeBits_lt_two (a := a) (b := b) (by omega)).mp (by omega)
    omega
  have n1 : s1.numBits = rangeBits a b := by simp [hs1, mkPowerTwo, PowerTwo.numBits, freshSecs]
  have n2 : s2.numBits = rangeBits a b := by simp [hs2, mkPowerTwo, PowerTwo.numBits, freshSecs]
  have p1 : s1.isProver = false := by
    simp [hs1, mkPowerTwo, hσ1, rangeStore, hx, hr]
  have p2 : s2.isProver = false := by
    simp [hs2, mkPowerTwo, hσ1, rangeStore, hx, hr]
  obtain ⟨k1, a1, a2, a3, a4⟩ := PowerTwo.lone_ok (s := s1) σ p1 (by omega)
    (show com1.grp = g.grp by rw [e1]) hh ho X
  obtain ⟨k2, b1, b2, b3, b4⟩ := PowerTwo.lone_ok (s := s2) σ p2 (by omega)
    (show com2.grp = g.grp by rw [e2]) hh ho X
  set v1 : Val E := .dict [("Cs", .list (s1.lone.map .pt)), ("rand", .int 0)] with hv1
  set v2 : Val E := .dict [("Cs", .list (s2.lone.map .pt)), ("rand", .int 0)] with hv2
  set rep : DLRep E := ⟨com, [g, h], [x, r], knownValues σ1 [x, r] [], false⟩ with hrep
  have hd : Digested σ (.and false [.leaf (.dlrep rep), s1.stmt, s2.stmt]) (.list [.none, v1, v2])
      (.all [.rep com [g, h] 2, .ext s1.spec.cls v1 (shape k1), .ext s2.spec.cls v2 (shape k2)]) (.and false [.leaf rep, k1, k2]) := by
    refine .all _ _ _ (fun i => [Val.none, v1, v2][i]?.getD .none) _ _ (by simp) rfl rfl ?_ ?_
    · intro i hi
      simp only [List.length_cons, List.length_nil] at hi
      match i, hi with
      | 0, _ => rfl
      | 1, _ => rfl
      | 2, _ => rfl
    · intro i t S k ht hS hk
      match i with
      | 0 =>
        cases ht; cases hS; cases hk
        exact .rep _ _
      | 1 =>
        cases ht; cases hS; cases hk
        exact .ext _ _ _ a1 a2
      | 2 =>
        cases ht; cases hS; cases hk
        exact .ext _ _ _ b1 b2
      | i + 3 => simp at ht
  have hsolid : Solid (.and false [.leaf rep, k1, k2] : Core E) := by
    refine ⟨by simp, ?_, a3, b3, trivial⟩
    simp [hrep, Solid, hc, hh, ho]
  have hout : OutsideTrue σ X (.and false [.leaf rep, k1, k2] : Core E) := by
    refine .all _ _ fun t ht => ?_
    simp only [List.mem_cons, List.not_mem_nil, or_false] at ht
    rcases ht with rfl | rfl | rfl
    · refine .rep _ (.rep _ _ ?_ ?_)
      · simp [hrep, hc, hh]
      · simp [hrep, X, Ne.symm hkey, hopen]
    · exact a4
    · exact b4
  obtain ⟨c, hash, hv⟩ := C67_forgery env σ _ (.list [.none, v1, v2]) _ _ X msg (.inr ⟨by simp, hd⟩) hsolid hout
    (by simp)
  refine ⟨_, hv, fun i hi => ?_⟩
  rcases hi with rfl | rfl
  · exact ⟨v1, _, _, rfl, rfl, rfl, by rw [List.length_map, PowerTwo.lone_length (by omega), n1]⟩
  · exact ⟨v2, _, _, rfl, rfl, rfl, by rw [List.length_map, PowerTwo.lone_length (by omega), n2]⟩

/-- **C67** A false range statement with an accepted proof that has the right number of bit commitments: `com` opens
to 5 only, modulo 13, and the range is `[0, 3)`. -/
theorem C67_range_violated (env : Env (ZMod 13 × ZMod 13)) (msg : String) :
    ∃ t nizk, rangeStmt exNoValues (exPt 5 0) (exPt 1 0) (exPt 0 1) 0 3 0 1 2 =
        .ok (rangeStore exNoValues 0 3 0 2 3, t) ∧
      verify env exNoValues t nizk msg = .ok true ∧
      ¬ ∃ x r : Int, (exPt 5 0).val = x • (exPt 1 0).val + r • (exPt 0 1).val ∧ 0 ≤ x ∧ x < 3 := by
  obtain ⟨t, ht⟩ := rangeStmt_exists (σ := exNoValues) (com := exPt 5 0) (g := exPt 1 0) (h := exPt 0 1) (a := 0)
    (b := 3) (x := 0) (r := 1) (next := 2) rfl rfl
  obtain ⟨nizk, hv, _⟩ := C67_range env exNoValues _ exNoValues _ _ _ 0 3 0 1 2 t (by decide) rfl rfl (by decide) ht
    (by decide) 5 0 (by decide) msg
  refine ⟨t, nizk, ht, hv, ?_⟩
  rintro ⟨x, r, h1, h2, h3⟩
  have hx : x = 0 ∨ x = 1 ∨ x = 2 := by omega
  have h4 := congrArg Prod.fst h1
  rw [Prod.fst_add, Prod.smul_fst, Prod.smul_fst] at h4
  simp only [exPt, smul_zero, add_zero] at h4
  rcases hx with rfl | rfl | rfl <;> revert h4 <;> decide

end Zksk.Props
