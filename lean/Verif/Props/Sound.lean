import Verif.Lemmas.Forge
import Verif.Examples
import Mathlib.Data.Nat.Prime.Infinite
import Mathlib.Data.Nat.Prime.Int
import Mathlib.Data.ZMod.Basic

/-! # C17 – C19: soundness -/

set_option linter.unusedSectionVars false

namespace Zksk.Props

open Spec

variable {E : Type} [AddCommGroup E] [DecidableEq E]

/-! ### C17 -/

/-- **C17** Special soundness of representations: from two accepted answers to the same commitment, with
challenges whose difference has the inverse `u` modulo the group order, the values
`xᵢ = u (rᵢ - r'ᵢ)`, one per distinct secret, satisfy `lhs = Σ xᵢ Gᵢ`. -/
theorem C17_dlrep_extraction (σ : Store) (s : DLRep E) (com r r' : Val E) (c c' u : Int)
    (hlen : s.secretVars.length = s.bases.length)
    (htor : (s.lhs.grp.order : Int) • s.lhs.val = 0) (htorb : ∀ b ∈ s.bases, (s.lhs.grp.order : Int) • b.val = 0)
    (hu : u * (c - c') % s.lhs.grp.order = 1 % s.lhs.grp.order)
    (h : verifyResponse σ (.leaf s) com c r = .ok true)
    (h' : verifyResponse σ (.leaf s) com c' r' = .ok true) :
    ∃ X : Key → Int,
      (∀ (i : Nat) (x : Sec), s.secretVars[i]? = some x → ∃ ri ri' : Int, r.index i = .ok (.int ri) ∧
        r'.index i = .ok (.int ri') ∧ X (σ.key x) = u * (ri - ri')) ∧
      s.lhs.val = (List.zipWith (fun x b => X (σ.key x) • b.val) s.secretVars s.bases).sum := by
  obtain ⟨⟨ρ, ha⟩, he⟩ := verifyResponse_iff.mp h
  obtain ⟨⟨ρ', ha'⟩, he'⟩ := verifyResponse_iff.mp h'
  have hh := extract_rep (Q := s.lhs.grp.order) hlen ⟨htor, htorb⟩
    (Int.ModEq.dvd (Int.ModEq.symm hu)) ha ha' he he'
  obtain ⟨_, _, i1⟩ := rep_responses hlen ha he
  obtain ⟨_, _, i2⟩ := rep_responses hlen ha' he'
  refine ⟨fun κ => u * (iv (ρ κ) - iv (ρ' κ)), fun i x hx => ?_, by cases hh with | rep _ _ _ h => exact h⟩
  have hm := List.mem_of_getElem? hx
  refine ⟨_, _, ?_, ?_, rfl⟩
  · cases ha with
    | rep _ _ _ ha => rw [ha i x hx, ← i1 x hm]
  · cases ha' with
    | rep _ _ _ ha' => rw [ha' i x hx, ← i2 x hm]

/-- `1 = x0·1 + x1·2`, challenges 3 and 5; `u = 3` is inverse to `3 - 5`. -/
example : verifyResponse Ex.σ (.leaf Ex.rep1) (.pt (Ex.P 2)) 3 (.list [.int 1, .int 2]) = .ok true ∧
    verifyResponse Ex.σ (.leaf Ex.rep1) (.pt (Ex.P 2)) 5 (.list [.int 5, .int 1]) = .ok true ∧
    3 * (3 - 5) % (7 : Int) = 1 := ⟨rfl, rfl, rfl⟩

/-! ### C18 -/

/-- **C18** Special soundness of conjunctions, nested in any way: from two accepted answers to the same
commitment, with challenges whose difference has an inverse `u` modulo a common exponent `Q` of all groups
involved, one single assignment `X` of values to secrets satisfies all conjuncts.  For every occurrence of
a secret the value is `u (r - r')` for the responses `r`, `r'` given for this very occurrence. -/
theorem C18_and_extraction (σ : Store) (t : Core E) (com r r' : Val E) (c c' u Q : Int)
    (ho : OrFree t) (hw : WellFormed t) (hk : Killed Q t) (hu : u * (c - c') % Q = 1 % Q)
    (h : verifyResponse σ t com c r = .ok true) (h' : verifyResponse σ t com c' r' = .ok true) :
    ∃ X : Key → Int, Holds σ t X ∧
      ∀ (x : Sec) (v v' : Int), Occ t r x (.int v) → Occ t r' x (.int v') → X (σ.key x) = u * (v - v') := by
  obtain ⟨⟨ρ, ha⟩, he⟩ := verifyResponse_iff.mp h
  obtain ⟨⟨ρ', ha'⟩, he'⟩ := verifyResponse_iff.mp h'
  refine ⟨_, extract t hw hk u c c' r r' com ρ ρ' (Int.ModEq.dvd (Int.ModEq.symm hu)) (.inl ho)
    (inRange_of_orFree t ho r) (inRange_of_orFree t ho r') ha ha' he he', fun x v v' ho ho' => ?_⟩
  have e1 := occ_agree ho ha
  have e2 := occ_agree ho' ha'
  simp only [← e1, ← e2, iv]

/-- `1 = x0·1 + x1·2` and `6 = x0·3`, sharing `x0`. -/
example : verifyResponse Ex.σ (.and false [.leaf Ex.rep1, .leaf Ex.rep2]) (.list [.pt (Ex.P 2), .pt (Ex.P 6)]) 3
      (.list [.list [.int 1, .int 2], .list [.int 1]]) = .ok true ∧
    verifyResponse Ex.σ (.and false [.leaf Ex.rep1, .leaf Ex.rep2]) (.list [.pt (Ex.P 2), .pt (Ex.P 6)]) 5
      (.list [.list [.int 5, .int 1], .list [.int 5]]) = .ok true ∧
    Killed 7 (.and false [.leaf Ex.rep1, .leaf Ex.rep2]) ∧
    OrFree (.and false [.leaf Ex.rep1, .leaf Ex.rep2]) := by
  refine ⟨rfl, rfl, ?_, .all _ _ fun t ht => ?_⟩
  · simp only [Killed, KilledL, Ex.rep1, Ex.rep2, Ex.P, List.mem_cons, List.not_mem_nil, or_false,
      forall_eq_or_imp, forall_eq, and_true]
    decide
  · simp only [List.mem_cons, List.not_mem_nil, or_false] at ht
    rcases ht with rfl | rfl <;> exact .rep _

/-! ### C19 -/

/-- **C19** (violated) Forgery with a surplus sub-challenge: for *every* disjunction, every message and
every hash function `verify()` accepts a proof made from public data only (all clauses answer the
challenge 0 with zeros, and the challenge is carried by an extra entry that belongs to no clause). -/
theorem C19_forgery_extra_challenge (env : Env E) (σ : Store) (b : Bool) (subs : List (Core E)) (msg : String)
    (hs : Solid (.or b subs)) :
    ∃ c h, verify env σ (.or b subs)
      ⟨c, .tuple [.list (subs.map (fun _ => .int 0) ++ [.int c]), .list (blindAll 0 subs)], .none, h⟩ msg =
        .ok true := by
  refine zero_verify env σ (.or b subs) msg
    (fun c => .tuple [.list (subs.map (fun _ => .int 0) ++ [.int c]), .list (blindAll 0 subs)]) fun c => ?_
  obtain ⟨h1, h2⟩ := blind_extra σ b subs hs (fun t _ => killed_zero t) c
  exact ⟨⟨_, h1⟩, h2⟩

/-- **C19** (violated) Forgery with sub-challenges out of range: for every disjunction over groups of odd
order, `verify()` accepts a proof made from public data only, with one sub-challenge per clause: that of the
first clause is a multiple of the order, the others are 0, and all responses are zeros. -/
theorem C19_forgery_multiple_of_order (env : Env E) (σ : Store) (b : Bool) (subs : List (Core E)) (msg : String)
    (Q : Int) (hs : Solid (.or b subs)) (hk : Killed Q (.or b subs)) (hQ : Odd Q) :
    ∃ c h m, Q ∣ m ∧ m % 2 ^ 128 = c % 2 ^ 128 ∧
      verify env σ (.or b subs) ⟨c, blindResponses m (.or b subs), .none, h⟩ msg = .ok true := by
  choose m hm using odd_reach hQ
  obtain ⟨c, h, hv⟩ := zero_verify env σ (.or b subs) msg (fun c => blindResponses (m c) (.or b subs)) fun c => by
    obtain ⟨h1, h2⟩ := blind_run σ Q (.or b subs) hs hk (m c) (hm c).1
    exact ⟨⟨_, h1⟩, eqns_or_mod h2 (hm c).2⟩
  exact ⟨c, h, m c, (hm c).1, (hm c).2, hv⟩

/-- `6 = x0·3 and 5 = x0·3` (false, whatever `x0`), twice, as clauses of a disjunction. -/
def exFalse : Core (ZMod 7) :=
  .or false [.and false [.leaf Ex.rep2, .leaf { Ex.rep3 with secretVars := [0] }],
    .and false [.leaf Ex.rep2, .leaf { Ex.rep3 with secretVars := [0] }]]

private theorem exFalse_solid : Solid exFalse := by
  simp [exFalse, Solid, SolidL, Ex.rep2, Ex.rep3, Ex.P, Ex.G]

private theorem exFalse_killed : Killed 7 exFalse := by
  simp only [exFalse, Killed, KilledL, Ex.rep2, Ex.rep3, Ex.P, List.mem_cons, List.not_mem_nil, or_false,
      forall_eq, and_true]
  decide

private theorem exFalse_false (X : Key → Int) : ¬ Holds Ex.σ exFalse X := by
  intro h
  cases h with
  | any _ _ _ X' t ht h =>
    simp only [List.mem_cons, List.not_mem_nil, or_false, or_self] at ht
    subst ht
    cases h with
    | all _ _ _ h =>
      have h1 := h (.leaf Ex.rep2) (by simp)
      have h2 := h (.leaf { Ex.rep3 with secretVars := [0] }) (by simp)
      cases h1 with
      | rep _ _ _ h1 =>
      cases h2 with
      | rep _ _ _ h2 =>
      simp only [Ex.rep2, Ex.rep3, Ex.P, List.zipWith_cons_cons, List.zipWith_nil_right, List.sum_cons,
        List.sum_nil, add_zero] at h1 h2
      rw [← h1] at h2
      exact absurd h2 (by decide)

/-- **C19** (violated) There is a statement that is true for no values of the secrets and for which both
forgeries are accepted, whatever the hash function and the message. -/
theorem C19_false_statement_accepted (env : Env (ZMod 7)) (msg : String) :
    ∃ (t : Core (ZMod 7)) (nizk nizk' : NIZK (ZMod 7)), (∀ X, ¬ Holds Ex.σ t X) ∧ nizk ≠ nizk' ∧
      verify env Ex.σ t nizk msg = .ok true ∧ verify env Ex.σ t nizk' msg = .ok true := by
  obtain ⟨c, h, h1⟩ := C19_forgery_extra_challenge env Ex.σ false _ msg exFalse_solid
  obtain ⟨c', h', m, _, _, h2⟩ := C19_forgery_multiple_of_order env Ex.σ false _ msg 7 exFalse_solid exFalse_killed
    (by decide)
  refine ⟨exFalse, _, _, exFalse_false, ?_, h1, h2⟩
  intro heq
  have := congrArg NIZK.responses heq
  simp [blindResponses, blindChallenges] at this

/-- **C19** What remains: if the responses to every disjunction give one sub-challenge per clause, in the
range of those of honest provers, and all prime factors of the orders are large, then two accepted answers
to the same commitment and different challenges of 128 bits show that the statement is true, for every
nesting of conjunctions and disjunctions, with one assignment for each conjunction outside and inside
or-clauses.  Missing: `verify()` does not check these two conditions, see the forgeries above. -/
theorem C19_extraction_partial (σ : Store) (t : Core E) (com r r' : Val E) (c c' Q : Int)
    (hw : WellFormed t) (hk : Killed Q t) (hQ : BigFactors Q)
    (hc : 0 ≤ c ∧ c < 2 ^ 128) (hc' : 0 ≤ c' ∧ c' < 2 ^ 128) (hne : c ≠ c')
    (hr : InRange t r) (hr' : InRange t r')
    (h : verifyResponse σ t com c r = .ok true) (h' : verifyResponse σ t com c' r' = .ok true) :
    ∃ X : Key → Int, Holds σ t X ∧ ∃ u : Int, u * (c - c') % Q = 1 % Q ∧
      ∀ (x : Sec) (v v' : Int), Occ t r x (.int v) → Occ t r' x (.int v') → X (σ.key x) = u * (v - v') := by
  obtain ⟨⟨ρ, ha⟩, he⟩ := verifyResponse_iff.mp h
  obtain ⟨⟨ρ', ha'⟩, he'⟩ := verifyResponse_iff.mp h'
  obtain ⟨u, q, huq⟩ := hQ (c - c') (by omega) (by rw [abs_lt]; constructor <;> omega)
  have hdvd : Q ∣ u * (c - c') - 1 := ⟨-q, by linarith⟩
  refine ⟨_, extract t hw hk u c c' r r' com ρ ρ' hdvd (.inr ⟨hQ, ?_⟩) hr hr' ha ha' he he', u,
    Int.emod_eq_emod_iff_emod_sub_eq_zero.mpr (Int.emod_eq_zero_of_dvd hdvd), fun x v v' ho ho' => ?_⟩
  · rw [Int.emod_eq_of_lt hc.1 hc.2, Int.emod_eq_of_lt hc'.1 hc'.2]; exact hne
  · have e1 := occ_agree ho ha
    have e2 := occ_agree ho' ha'
    simp only [← e1, ← e2, iv]

/-- Prime orders of at least 129 bits are fine. -/
theorem bigFactors_of_prime {p : Nat} (hp : p.Prime) (h : 2 ^ 129 ≤ p) : BigFactors (p : Int) := by
  intro n hn hlt
  rw [isCoprime_comm, Int.isCoprime_iff_gcd_eq_one]
  have hnd : ¬ p ∣ n.natAbs := fun hd => ?_
  · simpa [Int.gcd] using (Nat.Prime.coprime_iff_not_dvd hp).mpr hnd
  have := Int.le_of_dvd (abs_pos.mpr hn) ((dvd_abs _ _).mpr (Int.natCast_dvd.mpr hd))
  have h2 : ((2 ^ 129 : Nat) : Int) ≤ p := by exact_mod_cast h
  norm_num at h2 hlt
  omega

/-- `1 = x·1` in the group of order `p`. -/
def exBig (p : Nat) (x : Sec) : DLRep (ZMod p) := ⟨⟨⟨0, p, true⟩, 1⟩, [⟨⟨0, p, true⟩, 1⟩], [x], [], false⟩

/-- A commitment to `exBig p 0 or exBig p 2`, and the answer to the challenge `c` (0 or 1). -/
def exBigCom (p : Nat) : Val (ZMod p) := .list [.pt ⟨⟨0, p, true⟩, 0⟩, .pt ⟨⟨0, p, true⟩, 0⟩]

/-- See `exBigCom`. -/
def exBigAns (p : Nat) (c : Int) : Val (ZMod p) :=
  .tuple [.list [.int c, .int 0], .list [.list [.int c], .list [.int 0]]]

/-- The hypotheses are met by `1 = x0·1 or 1 = x2·1` in a group of large prime order `p`, challenges 0
and 1. -/
theorem exBig_run (p : Nat) (hle : 2 ^ 129 ≤ p) (hp : p.Prime) (t : Core (ZMod p))
    (ht : t = .or false [.leaf (exBig p 0), .leaf (exBig p 2)]) : WellFormed t ∧ Killed (p : Int) t ∧
    BigFactors (p : Int) ∧ InRange t (exBigAns p 0) ∧ InRange t (exBigAns p 1) ∧
    verifyResponse Ex.σ t (exBigCom p) 0 (exBigAns p 0) = .ok true ∧
    verifyResponse Ex.σ t (exBigCom p) 1 (exBigAns p 1) = .ok true := by
  subst ht
  let g : Pt (ZMod p) := ⟨⟨0, p, true⟩, 1⟩
  unfold exBig exBigCom exBigAns
  refine ⟨?_, ?_, bigFactors_of_prime hp hle, ?_, ?_, ?_, ?_⟩
  · simp [WellFormed, WellFormedL]
  · simp [Killed, KilledL, g]
  · refine ⟨fun cs h => ?_, fun rs h => ?_⟩
    · have h1 : [(.int 0 : Val (ZMod p)), .int 0] = cs.map .int := by
        simpa [Val.index] using h
      match cs, h1 with
      | [a, b], h1 =>
        simp only [List.map_cons, List.map_nil, List.cons.injEq, Val.int.injEq, and_true] at h1
        obtain ⟨rfl, rfl⟩ := h1
        simp
    · simp [InRangeL, InRange]
  · refine ⟨fun cs h => ?_, fun rs h => ?_⟩
    · have h1 : [(.int 1 : Val (ZMod p)), .int 0] = cs.map .int := by
        simpa [Val.index] using h
      match cs, h1 with
      | [a, b], h1 =>
        simp only [List.map_cons, List.map_nil, List.cons.injEq, Val.int.injEq, and_true] at h1
        obtain ⟨rfl, rfl⟩ := h1
        simp
    · simp [InRangeL, InRange]
  · obtain ⟨h1, h2⟩ := blind_run Ex.σ (p : Int) (.or false [.leaf ⟨g, [g], [0], [], false⟩,
      .leaf ⟨g, [g], [2], [], false⟩]) (by simp [Solid, SolidL, g, hp.ne_zero]) (by simp [Killed, KilledL, g]) 0
      (dvd_zero _)
    exact verifyResponse_iff.mpr ⟨⟨_, h1⟩, h2⟩
  · have one : ∀ (x : Sec) (c w : Int), ((w : ZMod p) - c) = 0 →
        Eqns (.leaf ⟨g, [g], [x], [], false⟩) c (.list [.int w]) (.pt ⟨⟨0, p, true⟩, 0⟩) := by
      intro x c w h
      have := Eqns.rep ⟨g, [g], [x], [], false⟩ c (.list [.int w]) _ [w] rfl (fun _ => rfl) rfl (by simp)
      simpa [g, h] using this
    refine verifyResponse_iff.mpr ⟨⟨fun _ => .int 0, .any _ _ _ (.list [.list [.int 1], .list [.int 0]]) _
      (fun i => if i = 0 then .list [.int 1] else .list [.int 0])
      (fun i _ => if i = 0 then .int 1 else .int 0) (fun _ => rfl) ?_ ?_⟩,
      .any _ _ _ _ (.list [.list [.int 1], .list [.int 0]]) [1, 0] _
      (fun i => if i = 0 then .list [.int 1] else .list [.int 0]) rfl rfl rfl rfl (by simp) ?_ ?_⟩
    · intro i hi
      match i, hi with
      | 0, _ => rfl
      | 1, _ => rfl
    · intro i t hi
      match i, hi with
      | 0, hi => cases hi; exact .rep _ _ _ (fun j x hj => by
          match j, hj with
          | 0, _ => rfl)
      | 1, hi => cases hi; exact .rep _ _ _ (fun j x hj => by
          match j, hj with
          | 0, _ => rfl)
    · intro i hi
      match i, hi with
      | 0, _ => rfl
      | 1, _ => rfl
    · intro i t com ci ht hcom hci
      match i, ht, hcom, hci with
      | 0, ht, hcom, hci => cases ht; cases hcom; cases hci; exact one 0 1 1 (by simp)
      | 1, ht, hcom, hci => cases ht; cases hcom; cases hci; exact one 2 0 0 (by simp)

/-- There are such primes. -/
example : ∃ p : Nat, 2 ^ 129 ≤ p ∧ p.Prime := Nat.exists_infinite_primes (2 ^ 129)

end Zksk.Props
