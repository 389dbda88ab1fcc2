import Verif.Lemmas.Prim
import Verif.Lemmas.Arith
import Verif.Lemmas.Zero
import Mathlib.Tactic.Linarith
import Mathlib.Tactic.Abel

/-! Lemmas about range proofs. -/

set_option linter.unusedSectionVars false

namespace Zksk

open Spec

variable {E : Type} [AddCommGroup E] [DecidableEq E]

/-! ### Arithmetic -/

theorem rangeBits_bounds {a b : Int} (h : a < b) : b - a ≤ 2 ^ rangeBits a b := by
  unfold rangeBits numBits
  have h1 := Nat.lt_size_self (b - a - 1).natAbs
  have h2 : ((b - a - 1).natAbs : Int) < ((2 ^ (b - a - 1).natAbs.size : Nat) : Int) := by exact_mod_cast h1
  rw [Int.natAbs_of_nonneg (by omega)] at h2
  push_cast at h2
  omega

theorem rangeBits_upper {a b : Int} (h : a < b) : 2 ^ rangeBits a b ≤ 2 * (b - a) := by
  unfold rangeBits numBits
  cases hn : (b - a - 1).natAbs.size with
  | zero => simp; omega
  | succ n =>
    have h1 : n < (b - a - 1).natAbs.size := by omega
    rw [Nat.lt_size] at h1
    have h2 : ((2 ^ n : Nat) : Int) ≤ ((b - a - 1).natAbs : Int) := by exact_mod_cast h1
    rw [Int.natAbs_of_nonneg (by omega)] at h2
    push_cast at h2
    rw [pow_succ]
    omega

theorem rangeBits_lt_two {a b : Int} (h : a < b) : rangeBits a b < 2 ↔ b - a ≤ 2 := by
  unfold rangeBits numBits
  rw [show ((b - a - 1).natAbs.size < 2 ↔ (b - a - 1).natAbs.size ≤ 1) by omega, Nat.size_le]
  omega

/-- `c₀ + 2 c₁ + 4 c₂ + …`. -/
def hornerE : List E → E
  | [] => 0
  | c :: cs => c + (2 : Int) • hornerE cs

theorem hornerE_zip (g h : E) : ∀ (bs rs : List Int), bs.length = rs.length →
    hornerE (List.zipWith (fun b r => b • g + r • h) bs rs) = horner bs • g + horner rs • h
  | [], [], _ => by simp [hornerE, horner]
  | b :: bs, r :: rs, hl => by
    simp only [List.zipWith_cons_cons, hornerE, horner, hornerE_zip g h bs rs (by simpa using hl), smul_add,
      add_smul, mul_smul]
    abel

theorem hornerE_append : ∀ (cs ds : List E), hornerE (cs ++ ds) = hornerE cs + (2 ^ cs.length : Int) • hornerE ds
  | [], ds => by simp [hornerE]
  | c :: cs, ds => by
    simp only [List.cons_append, hornerE, hornerE_append cs ds, List.length_cons, pow_succ, smul_add]
    rw [mul_comm, mul_smul]
    abel

theorem hornerE_zero : ∀ (n : Nat), hornerE (List.replicate n (0 : E)) = 0
  | 0 => rfl
  | n + 1 => by simp [List.replicate_succ, hornerE, hornerE_zero n]

theorem horner_range : ∀ (bs : List Int), (∀ b ∈ bs, b = 0 ∨ b = 1) → 0 ≤ horner bs ∧ horner bs < 2 ^ bs.length
  | [], _ => by simp [horner]
  | b :: bs, h => by
    obtain ⟨h1, h2⟩ := horner_range bs fun b hb => h b (by simp [hb])
    have hb := h b (by simp)
    simp only [horner, List.length_cons, pow_succ]
    omega

namespace PowerTwo

theorem sumRands_mod (m : Nat) : ∀ (vs : List Int) (rand p : Int),
    ((m : Int)) ∣ sumRands m rand p vs - (rand + p * horner vs)
  | [], rand, p => by simp [sumRands, horner]
  | v :: vs, rand, p => by
    have h1 := sumRands_mod m vs ((rand + v * p) % m) (p * 2)
    have h2 : (m : Int) ∣ (rand + v * p) % m - (rand + v * p) := ⟨-((rand + v * p) / m), by
      have := Int.emod_add_mul_ediv (rand + v * p) m; linarith⟩
    have : sumRands m rand p (v :: vs) - (rand + p * horner (v :: vs)) =
        (sumRands m ((rand + v * p) % m) (p * 2) vs - ((rand + v * p) % m + p * 2 * horner vs)) +
        ((rand + v * p) % m - (rand + v * p)) := by
      simp only [sumRands, horner]; ring
    rw [this]
    exact dvd_add h1 h2

theorem combine_inv : ∀ (cs : List (Val E)) (acc : Pt E) (p : Int) (q : Pt E), combine acc p cs = .ok q →
    ∃ ps : List (Pt E), cs = ps.map .pt ∧ (∀ c ∈ ps, c.grp = acc.grp) ∧
      q = ⟨acc.grp, acc.val + p • hornerE (ps.map Pt.val)⟩
  | [], acc, p, q, h => by
    simp only [combine, Except.ok.injEq] at h
    exact ⟨[], rfl, by simp, by subst h; simp [hornerE]⟩
  | c :: cs, acc, p, q, h => by
    simp only [combine] at h
    obtain ⟨c0, h1, h⟩ := bind_ok_iff.mp h
    obtain ⟨acc', h2, h⟩ := bind_ok_iff.mp h
    have hc : c = .pt c0 := by cases c <;> simp_all [Val.asPt]
    unfold Pt.add at h2
    split at h2
    · rename_i hg
      injection h2 with h2
      obtain ⟨ps, g1, g2, g3⟩ := combine_inv cs acc' (p * 2) q h
      subst h2
      simp only [Pt.smul] at g2 g3 hg
      refine ⟨c0 :: ps, by simp [hc, g1], ?_, ?_⟩
      · intro x hx
        rcases List.mem_cons.mp hx with rfl | hx
        · exact hg.symm
        · exact g2 x hx
      · rw [g3]
        simp only [List.map_cons, hornerE, smul_add, mul_smul, Pt.mk.injEq, true_and]
        abel
    · cases h2

theorem combine_of : ∀ (ps : List (Pt E)) (acc : Pt E) (p : Int), (∀ c ∈ ps, c.grp = acc.grp) →
    combine acc p (ps.map .pt) = .ok ⟨acc.grp, acc.val + p • hornerE (ps.map Pt.val)⟩
  | [], acc, p, _ => by simp [combine, hornerE]
  | c :: ps, acc, p, h => by
    simp only [List.map_cons, combine, Val.asPt, bind_ok, Pt.add, Pt.smul, (h c (by simp)), if_true]
    rw [combine_of ps _ _ (fun x hx => by simp only; exact h x (by simp [hx]))]
    simp only [hornerE, smul_add, mul_smul, Except.ok.injEq, Pt.mk.injEq, true_and]
    abel

/-- What validation means. -/
theorem validate_iff (s : PowerTwo E) (v : Val E) : s.validate v = .ok () ↔
    ∃ (rand : Int) (l : Val E) (ps : List (Pt E)), v.lookup "rand" = .ok (.int rand) ∧
      v.lookup "Cs" = .ok l ∧ l.elems = .ok (ps.map .pt) ∧ (∀ c ∈ ps, c.grp = s.g.grp) ∧
      s.com.grp = s.g.grp ∧ s.h.grp = s.g.grp ∧
      hornerE (ps.map Pt.val) = s.com.val + rand • s.h.val := by
  unfold validate
  constructor
  · intro h
    obtain ⟨r, h1, h⟩ := bind_ok_iff.mp h
    obtain ⟨l, h2, h⟩ := bind_ok_iff.mp h
    obtain ⟨cs, h3, h⟩ := bind_ok_iff.mp h
    obtain ⟨q, h4, h⟩ := bind_ok_iff.mp h
    obtain ⟨n, h5, h⟩ := bind_ok_iff.mp h
    obtain ⟨rhs, h6, h⟩ := bind_ok_iff.mp h
    split at h
    · rename_i he
      have hr : r = .int n := by cases r <;> simp_all [Val.asInt]
      obtain ⟨ps, g1, g2, g3⟩ := combine_inv _ _ _ _ h4
      subst he
      unfold Pt.add at h6
      split at h6
      · rename_i hg
        injection h6 with h6
        rw [g3] at h6
        simp only [Grp.inf, Pt.smul, Pt.mk.injEq, one_smul, zero_add] at h6 hg
        exact ⟨n, l, ps, by rw [h1, hr], h2, by rw [h3, g1], g2, h6.1, by rw [← hg, h6.1], h6.2.symm⟩
      · cases h6
    · cases h
  · rintro ⟨n, l, ps, h1, h2, h3, h4, h5, h6, h7⟩
    have hc := combine_of ps s.g.grp.inf 1 h4
    simp only [Grp.inf] at hc
    simp only [h1, h2, h3, bind_ok, hc, Val.asInt, Pt.add, Pt.smul, h5, h6, if_true,
      Grp.inf, one_smul, zero_add, h7]

/-- The two clauses about one bit. -/
def clauses (σ : Store) (s : PowerTwo E) (c : Pt E) (rand : Sec) (bit : Option Int) : List (Core E) :=
  [.leaf ⟨c, [s.h], [rand], knownValues σ [rand] [], match bit with | some b => decide (b = 1) | none => false⟩,
    .leaf ⟨⟨c.grp, c.val - s.g.val⟩, [s.h], [rand], knownValues σ [rand] [],
      match bit with | some b => decide (b = 0) | none => false⟩]

theorem bitProof_iff {s : PowerTwo E} {σ : Store} {v : Val E} {i : Nat} {rand : Sec} {bit : Option Int}
    {t : Core E} : s.bitProof σ v i rand bit = .ok t ↔ ∃ (l : Val E) (c : Pt E), v.lookup "Cs" = .ok l ∧
      l.index i = .ok (.pt c) ∧ c.grp = s.g.grp ∧ t = .or false (clauses σ s c rand bit) := by
  unfold bitProof
  constructor
  · intro h
    obtain ⟨l, h1, h⟩ := bind_ok_iff.mp h
    obtain ⟨x, h2, h⟩ := bind_ok_iff.mp h
    obtain ⟨c, h3, h⟩ := bind_ok_iff.mp h
    obtain ⟨p0, h4, h⟩ := bind_ok_iff.mp h
    obtain ⟨c', h5, h⟩ := bind_ok_iff.mp h
    obtain ⟨p1, h6, h⟩ := bind_ok_iff.mp h
    have hx : x = .pt c := by cases x <;> simp_all [Val.asPt]
    obtain ⟨rfl, _, _⟩ := mkDLRep_ok h4
    obtain ⟨rfl, _, _⟩ := mkDLRep_ok h6
    unfold Pt.sub Pt.add at h5
    split at h5
    · rename_i hg
      injection h5 with h5
      subst h5
      simp only [Pt.smul] at hg
      refine ⟨l, c, h1, by rw [h2, hx], hg, ?_⟩
      cases bit <;> simp [opOr, mkOr, clauses, Pt.smul, sub_eq_add_neg] at h ⊢ <;> exact h.symm
    · cases h5
  · rintro ⟨l, c, h1, h2, h3, rfl⟩
    simp only [h1, h2, bind_ok, Val.asPt]
    rw [mkDLRep_of (g := s.h.grp) (by simp) (by simp), bind_ok]
    simp only [Pt.sub, Pt.add, Pt.smul, h3, if_true, bind_ok]
    rw [mkDLRep_of (g := s.h.grp) (by simp) (by simp), bind_ok]
    cases bit <;> simp [opOr, mkOr, clauses, sub_eq_add_neg, h3]

/-- The clauses about all bits. -/
def build (σ : Store) (s : PowerTwo E) : List (Pt E) → List Sec → Option (List Int) → List (Core E)
  | c :: cs, rand :: rands, none => .or false (clauses σ s c rand none) :: build σ s cs rands none
  | c :: cs, rand :: rands, some (b :: bs) =>
    .or false (clauses σ s c rand (some b)) :: build σ s cs rands (some bs)
  | _, _, _ => []

theorem bitProofs_inv {s : PowerTwo E} {σ : Store} {v : Val E} : ∀ (rands : List Sec) (i : Nat)
    (bits : Option (List Int)) (ps : List (Core E)), s.bitProofs σ v i rands bits = .ok ps →
    ∃ cs : List (Pt E), cs.length = rands.length ∧ (∀ c ∈ cs, c.grp = s.g.grp) ∧
      (∀ (j : Nat) (c : Pt E), cs[j]? = some c → ∃ l, v.lookup "Cs" = .ok l ∧ l.index (i + j) = .ok (.pt c)) ∧
      ps = build σ s cs rands bits ∧ ∀ bs, bits = some bs → rands.length ≤ bs.length
  | [], i, bits, ps, h => by
    simp only [bitProofs, Except.ok.injEq] at h
    exact ⟨[], rfl, by simp, by simp, by subst h; simp [build], by simp⟩
  | rand :: rands, i, none, ps, h => by
    simp only [bitProofs] at h
    obtain ⟨t, h1, h⟩ := bind_ok_iff.mp h
    obtain ⟨ts, h2, h⟩ := bind_ok_iff.mp h
    injection h with h; subst h
    obtain ⟨l, c, g1, g2, g3, rfl⟩ := bitProof_iff.mp h1
    obtain ⟨cs, f1, f2, f3, rfl, _⟩ := bitProofs_inv rands (i + 1) none ts h2
    refine ⟨c :: cs, by simp [f1], by simpa [g3] using f2, ?_, rfl, by simp⟩
    intro j c' hj
    cases j with
    | zero => simp only [List.getElem?_cons_zero, Option.some.injEq] at hj; subst hj; exact ⟨l, g1, g2⟩
    | succ j =>
      rw [show i + (j + 1) = i + 1 + j by omega]
      exact f3 j c' (by simpa using hj)
  | rand :: rands, i, some (b :: bs), ps, h => by
    simp only [bitProofs] at h
    obtain ⟨t, h1, h⟩ := bind_ok_iff.mp h
    obtain ⟨ts, h2, h⟩ := bind_ok_iff.mp h
    injection h with h; subst h
    obtain ⟨l, c, g1, g2, g3, rfl⟩ := bitProof_iff.mp h1
    obtain ⟨cs, f1, f2, f3, rfl, f5⟩ := bitProofs_inv rands (i + 1) (some bs) ts h2
    refine ⟨c :: cs, by simp [f1], by simpa [g3] using f2, ?_, rfl, ?_⟩
    · intro j c' hj
      cases j with
      | zero => simp only [List.getElem?_cons_zero, Option.some.injEq] at hj; subst hj; exact ⟨l, g1, g2⟩
      | succ j =>
        rw [show i + (j + 1) = i + 1 + j by omega]
        exact f3 j c' (by simpa using hj)
    · intro bs' hbs'
      injection hbs' with hbs'; subst hbs'
      simpa using f5 bs rfl
  | rand :: rands, i, some [], ps, h => by simp [bitProofs] at h

theorem bitProofs_of {s : PowerTwo E} {σ : Store} {v l : Val E} (hl : v.lookup "Cs" = .ok l) :
    ∀ (rands : List Sec) (i : Nat) (bits : Option (List Int)) (cs : List (Pt E)), cs.length = rands.length →
    (∀ c ∈ cs, c.grp = s.g.grp) → (∀ (j : Nat) (c : Pt E), cs[j]? = some c → l.index (i + j) = .ok (.pt c)) →
    (∀ bs, bits = some bs → rands.length ≤ bs.length) →
    s.bitProofs σ v i rands bits = .ok (build σ s cs rands bits)
  | [], i, bits, cs, h1, _, _, _ => by
    have : cs = [] := List.length_eq_zero_iff.mp h1
    subst this
    simp [bitProofs, build]
  | rand :: rands, i, bits, [], h1, _, _, _ => by simp at h1
  | rand :: rands, i, none, c :: cs, h1, h2, h3, _ => by
    have g1 : s.bitProof σ v i rand none = .ok (.or false (clauses σ s c rand none)) :=
      bitProof_iff.mpr ⟨l, c, hl, by simpa using h3 0 c rfl, h2 c (by simp), rfl⟩
    have g2 := bitProofs_of (s := s) (σ := σ) hl rands (i + 1) none cs (by simpa using h1) (fun c hc => h2 c (by simp [hc]))
      (fun j c' hj => by
        rw [show i + 1 + j = i + (j + 1) by omega]
        exact h3 (j + 1) c' (by simpa using hj)) (by simp)
    simp only [bitProofs, g1, g2, bind_ok, build]
  | rand :: rands, i, some [], c :: cs, _, _, _, h4 => by
    have := h4 [] rfl
    simp at this
  | rand :: rands, i, some (b :: bs), c :: cs, h1, h2, h3, h4 => by
    have g1 : s.bitProof σ v i rand (some b) = .ok (.or false (clauses σ s c rand (some b))) :=
      bitProof_iff.mpr ⟨l, c, hl, by simpa using h3 0 c rfl, h2 c (by simp), rfl⟩
    have g2 := bitProofs_of (s := s) (σ := σ) hl rands (i + 1) (some bs) cs (by simpa using h1) (fun c hc => h2 c (by simp [hc]))
      (fun j c' hj => by
        rw [show i + 1 + j = i + (j + 1) by omega]
        exact h3 (j + 1) c' (by simpa using hj)) (fun bs' h => by
          injection h with h; subst h
          simpa using h4 (b :: bs) rfl)
    simp only [bitProofs, g1, g2, bind_ok, build]

theorem construct_inv {s : PowerTwo E} {σ : Store} {v : Val E} {k : Core E} (h : s.construct σ v = .ok k) :
    2 ≤ s.numBits ∧ ∃ (cs : List (Pt E)) (bits : Option (List Int)), cs.length = s.numBits ∧
      (∀ c ∈ cs, c.grp = s.g.grp) ∧
      (∀ (j : Nat) (c : Pt E), cs[j]? = some c → ∃ l, v.lookup "Cs" = .ok l ∧ l.index j = .ok (.pt c)) ∧
      (∀ bs, bits = some bs → s.numBits ≤ bs.length) ∧
      k = .and false (build σ s cs s.rands bits) := by
  unfold construct at h
  obtain ⟨bits, h0, h⟩ := bind_ok_iff.mp h
  obtain ⟨ps, h1, h⟩ := bind_ok_iff.mp h
  obtain ⟨cs, g1, g2, g3, rfl, g5⟩ := bitProofs_inv _ _ _ _ h1
  obtain ⟨rfl, h2⟩ := mkAnd_ok h
  have hlen : ∀ (cs : List (Pt E)) (rands : List Sec) (bits : Option (List Int)), 
      (build σ s cs rands bits).length ≤ rands.length := by
    intro cs rands
    induction rands generalizing cs with
    | nil => intro bits; simp [build]
    | cons r rands ih =>
      intro bits
      cases cs with
      | nil => simp [build]
      | cons c cs =>
        cases bits with
        | none => simpa [build] using ih cs none
        | some bs =>
          cases bs with
          | nil => simp [build]
          | cons b bs => simpa [build] using ih cs (some bs)
  refine ⟨le_trans h2 (hlen _ _ _), cs, bits, g1, g2, fun j c hj => ?_, g5, rfl⟩
  simpa using g3 j c hj

/-- A clause about a bit that is true gives the bit and a randomizer. -/
theorem clauses_holds {σ : Store} {s : PowerTwo E} {c : Pt E} {rand : Sec} {bit : Option Int} {X : Key → Int}
    (h : Holds σ (.or false (clauses σ s c rand bit)) X) :
    ∃ b r : Int, (b = 0 ∨ b = 1) ∧ c.val = b • s.g.val + r • s.h.val := by
  cases h with
  | any _ _ _ X' t ht h =>
    simp only [clauses, List.mem_cons, List.not_mem_nil, or_false] at ht
    rcases ht with rfl | rfl
    · cases h with
      | rep _ _ _ h => exact ⟨0, X' (σ.key rand), .inl rfl, by simpa using h⟩
    · cases h with
      | rep _ _ _ h =>
        refine ⟨1, X' (σ.key rand), .inr rfl, ?_⟩
        simp only [List.zipWith_cons_cons, List.zipWith_nil_right, List.sum_cons, List.sum_nil, add_zero] at h
        rw [one_smul, ← h]; abel

theorem build_holds {σ : Store} {s : PowerTwo E} {X : Key → Int} : ∀ (rands : List Sec) (cs : List (Pt E))
    (bits : Option (List Int)), cs.length = rands.length → (∀ bs, bits = some bs → rands.length ≤ bs.length) →
    (∀ t ∈ build σ s cs rands bits, Holds σ t X) →
    ∃ bs rs : List Int, bs.length = cs.length ∧ rs.length = cs.length ∧ (∀ b ∈ bs, b = 0 ∨ b = 1) ∧
      cs.map Pt.val = List.zipWith (fun b r => b • s.g.val + r • s.h.val) bs rs
  | [], [], bits, _, _, _ => ⟨[], [], rfl, rfl, by simp, rfl⟩
  | rand :: rands, c :: cs, none, h1, h2, h => by
    obtain ⟨b, r, hb, hc⟩ := clauses_holds (h (.or false (clauses σ s c rand none)) (by simp [build]))
    obtain ⟨bs, rs, g1, g2, g3, g4⟩ := build_holds (σ := σ) (s := s) (X := X) rands cs none (by simpa using h1) (by simp)
      fun t ht => h t (by simp [build, ht])
    exact ⟨b :: bs, r :: rs, by simp [g1], by simp [g2], by simpa [hb] using g3, by simp [hc, g4]⟩
  | rand :: rands, c :: cs, some [], h1, h2, h => by
    have := h2 [] rfl
    simp at this
  | rand :: rands, c :: cs, some (b0 :: bs0), h1, h2, h => by
    obtain ⟨b, r, hb, hc⟩ := clauses_holds (h (.or false (clauses σ s c rand (some b0))) (by simp [build]))
    obtain ⟨bs, rs, g1, g2, g3, g4⟩ := build_holds (σ := σ) (s := s) (X := X) rands cs (some bs0) (by simpa using h1)
      (fun bs' h => by
          injection h with h; subst h
          simpa using h2 (b0 :: bs0) rfl)
      fun t ht => h t (by simp [build, ht])
    exact ⟨b :: bs, r :: rs, by simp [g1], by simp [g2], by simpa [hb] using g3, by simp [hc, g4]⟩

end PowerTwo

theorem elems_index {l : Val E} {es : List (Val E)} (h : l.elems = .ok es) {i : Nat} {x : Val E}
    (hi : l.index i = .ok x) : es[i]? = some x := by
  cases l with
  | list l => 
    simp only [Val.elems, Except.ok.injEq] at h; subst h
    simp only [Val.index] at hi
    split at hi
    · injection hi with hi; subst hi; assumption
    · cases hi
  | tuple l => 
    simp only [Val.elems, Except.ok.injEq] at h; subst h
    simp only [Val.index] at hi
    split at hi
    · injection hi with hi; subst hi; assumption
    · cases hi
  | bytes l => 
    simp only [Val.elems, Except.ok.injEq] at h; subst h
    simp only [Val.index] at hi
    split at hi
    · rename_i v hv
      injection hi with hi; subst hi; simp [hv]
    · cases hi
  | dict l => simp [Val.index] at hi
  | none => simp [Val.index] at hi
  | int => simp [Val.index] at hi
  | pt => simp [Val.index] at hi
  | str => simp [Val.index] at hi

/-- Every true general statement has an accepted proof for every precommitment that passes validation and can
be hashed. -/
theorem accepted_of_holds (env : Env E) (σ : Store) (t : Stmt E) (v : Val E) (S : Skel E) (k : Core E)
    (X : Key → Int) (msg : String) (hd : DigestedTop σ t v S k) (hs : Solid k) (h : Holds σ k X)
    (hv : ∃ b, env.chunk v = .ok b) :
    ∃ nizk : NIZK E, nizk.precommitment = v ∧ verify env σ t nizk msg = .ok true := by
  obtain ⟨t1, h1, h2, h3⟩ := digest_of_top hd
  obtain ⟨id, vs, hid, _⟩ := Tree.proofId_isOk (σ := σ) h3.1
  obtain ⟨b, hb⟩ := hv
  obtain ⟨c, hc⟩ : ∃ c, env.fiatShamir id v (zeroCommitment k) msg = .ok c := by
    unfold Env.fiatShamir Env.challengeInput
    rw [zero_chunk, hb]
    exact ⟨_, rfl⟩
  obtain ⟨r, hr1, hr2⟩ := zero_run σ k hs c X (.inr h)
  refine ⟨⟨c, r, v, env.digest id⟩, rfl, ?_⟩
  exact (verify_iff env σ t _ msg true).mpr
    ⟨S, k, id, zeroCommitment k, _, c, hd, h3.proofId.mp hid, rfl, hr1, hr2, hc, by simp⟩

end Zksk
