import Verif.Lemmas.RangeRun
import Verif.Props.NotEqual
import Verif.Props.Statement
import Mathlib.Tactic.Ring

/-! # C37–C40, C51: range proofs -/

set_option linter.unusedSectionVars false

namespace Zksk.Props

open Spec

variable {E : Type} [AddCommGroup E] [DecidableEq E]

/-! ### C38 -/

/-- **C38** For `a < b`, `RangeStmt(com, g, h, a, b, x, r)` is a conjunction of the opening of `com` and two
power-two range statements with the same number `n` of bits, about `com` shifted by `s1` and by `s2` (times `g`)
and about secrets that have the accordingly shifted value; and an integer is in `[a, b)` iff both shifted
integers are in `[0, 2^n)`. -/
theorem C38 (σ σ1 : Store) (com g h : Pt E) (a b : Int) (x r : Sec) (next : Nat) (t : Stmt E) (hab : a < b)
    (hs : rangeStmt σ com g h a b x r next = .ok (σ1, t)) :
    ∃ (c : DLRep E) (p1 p2 : PowerTwo E) (n : Nat) (s1 s2 : Int),
      t = .and false [.leaf (.dlrep c), p1.stmt, p2.stmt] ∧
      (c.lhs = com ∧ c.bases = [g, h] ∧ c.secretVars = [x, r]) ∧
      p1.numBits = n ∧ p2.numBits = n ∧
      p1.com.val = com.val + s1 • g.val ∧ p2.com.val = com.val + s2 • g.val ∧
      (∀ v, σ.value x = some v → σ1.value p1.x = some (v + s1) ∧ σ1.value p2.x = some (v + s2)) ∧
      ∀ v : Int, (a ≤ v ∧ v < b) ↔
        (0 ≤ v + s1 ∧ v + s1 < 2 ^ n) ∧ (0 ≤ v + s2 ∧ v + s2 < 2 ^ n) := by
  obtain ⟨c, com1, com2, _, _, rfl, rfl, rfl, rfl, rfl⟩ := rangeStmt_ok hs
  refine ⟨_, _, _, rangeBits a b, -a, rangeOffset a b - a, rfl, ⟨rfl, rfl, rfl⟩, ?_, ?_, ?_, ?_, ?_, ?_⟩
  · simp [mkPowerTwo, PowerTwo.numBits, freshSecs]
  · simp [mkPowerTwo, PowerTwo.numBits, freshSecs]
  · simp [mkPowerTwo, sub_eq_add_neg]
  · simp only [mkPowerTwo, sub_smul]; abel
  · intro v hv
    simp only [mkPowerTwo, rangeStore, hv, Store.setValue]
    refine ⟨?_, ?_⟩
    · have hne : (next : Nat) ≠ next + 1 := Nat.ne_of_lt (Nat.lt_succ_self _)
      rw [if_neg hne, if_pos trivial]; congr 1
    · rw [if_pos trivial]; congr 1; ring
  · intro v
    have := rangeBits_bounds hab
    unfold rangeOffset
    constructor
    · rintro ⟨h1, h2⟩; omega
    · rintro ⟨⟨h1, h2⟩, h3, h4⟩; omega

/-- The hypotheses are met by the range `[2, 7)`, `x = 2`, `r = 3`. -/
example : (2 : Int) < 7 ∧ ∃ t, rangeStmt Ex.σ (Ex.P 1) (Ex.P 1) (Ex.P 2) 2 7 0 1 3 =
    .ok (rangeStore Ex.σ 2 7 0 3 4, t) :=
  ⟨by decide, rangeStmt_exists rfl rfl⟩

/-! ### C37 -/

/-- **C37** Whatever the precommitment: if it passes `validate()`, it holds exactly as many bit commitments as
the statement has bits, and the statement built from it is true, then `com` opens to an integer in `[0, 2^n)`.
Missing: neither `validate()` nor `construct_stmt()` checks the number of commitments, see `C37_forgery`. -/
theorem C37_witness_partial (s : PowerTwo E) (σ : Store) (v : Val E) (k : Core E) (X : Key → Int)
    (hn : ∃ l es, v.lookup "Cs" = .ok l ∧ l.elems = .ok es ∧ es.length = s.numBits)
    (hc : s.construct σ v = .ok k) (hv : s.validate v = .ok ()) (h : Holds σ k X) :
    ∃ x r : Int, s.com.val = x • s.g.val + r • s.h.val ∧ 0 ≤ x ∧ x < 2 ^ s.numBits := by
  obtain ⟨l, es, n1, n2, n3⟩ := hn
  obtain ⟨_, cs, bits, h1, h2, h3, h4, rfl⟩ := PowerTwo.construct_inv hc
  obtain ⟨rand, l', ps, g1, g2, g3, g4, g5, g6, g7⟩ := (PowerTwo.validate_iff s v).mp hv
  obtain rfl : l = l' := Except.ok.inj (n1.symm.trans g2)
  obtain rfl : es = ps.map .pt := Except.ok.inj (n2.symm.trans g3)
  have hcp : cs = ps := by
    apply List.ext_getElem?
    intro j
    by_cases hj : j < cs.length
    · obtain ⟨l'', e1, e2⟩ := h3 j cs[j] (List.getElem?_eq_getElem hj)
      obtain rfl : l = l'' := Except.ok.inj (n1.symm.trans e1)
      have := elems_index n2 e2
      rw [List.getElem?_map, Option.map_eq_some_iff] at this
      obtain ⟨p, hp, hpe⟩ := this
      injection hpe with hpe
      rw [hp, hpe, List.getElem?_eq_getElem hj]
    · have hj' : ps.length ≤ j := by
        rw [List.length_map] at n3
        omega
      rw [List.getElem?_eq_none (by omega), List.getElem?_eq_none hj']
  subst hcp
  cases h with
  | all _ _ _ h =>
  obtain ⟨bs, rs, b1, b2, b3, b4⟩ := PowerTwo.build_holds s.rands cs bits h1 h4 h
  rw [b4, hornerE_zip _ _ _ _ (by rw [b1, b2])] at g7
  refine ⟨horner bs, horner rs - rand, ?_, ?_⟩
  · rw [sub_smul, ← sub_eq_iff_eq_add.mpr g7]; abel
  · have := horner_range bs b3
    rwa [b1, h1] at this

/-- Two bits: value 2 = `0 + 2·1` with randomizers 2 and 2 (secrets 0 and 3), in `ℤ/7ℤ`, `g = 1`, `h = 3`; the
commitment is `2·1 + r·3` with `r = 4` so that `rand = 2 + 2·2 − 4 = 2`. -/
def exRange (isProver : Bool) : PowerTwo (ZMod 7) := ⟨Ex.P 0, Ex.P 1, Ex.P 3, 1, 2, isProver, [0, 3]⟩

/-- Its bit commitments: `0·1 + 2·3 = 6`, `1·1 + 2·3 = 0`. -/
def exRangePre : Val (ZMod 7) := .dict [("Cs", .list [.pt (Ex.P 6), .pt (Ex.P 0)]), ("rand", .int 2)]

/-- The hypotheses are met by `exRange`. -/
example : ∃ k, (exRange false).construct exNeStore exRangePre = .ok k ∧
    (exRange false).validate exRangePre = .ok () ∧ Holds exNeStore k exHeapVal ∧
    ∃ l es, exRangePre.lookup "Cs" = .ok l ∧ l.elems = .ok es ∧ es.length = (exRange false).numBits := by
  refine ⟨_, rfl, by decide, .all _ _ _ ?_, _, _, rfl, rfl, rfl⟩
  intro t ht
  simp only [List.mem_cons, List.not_mem_nil, or_false] at ht
  rcases ht with rfl | rfl
  · exact .any _ _ _ exHeapVal _ (List.mem_cons_self ..) (.rep _ _ (by decide) (by decide))
  · exact .any _ _ _ exHeapVal _ (List.mem_cons_of_mem _ (List.mem_cons_self ..))
      (.rep _ _ (by decide) (by decide))

/-- **C37** The same for accepted protocol runs: the verifier accepts answers to two different challenges for the
same commitment.  Missing: as in `C37_witness_partial` and `C19_extraction_partial`. -/
theorem C37_accepted_partial (s : PowerTwo E) (σ : Store) (t1 : Stmt E) (k : Core E) (v com r r' : Val E)
    (c c' Q : Int)
    (hn : ∃ l es, v.lookup "Cs" = .ok l ∧ l.elems = .ok es ∧ es.length = s.numBits)
    (hd : digestPrecommitment σ (Tree.freshVerifier s.stmt) v = .ok t1)
    (hk : s.construct σ v = .ok k) (hkill : Killed Q k) (hQ : BigFactors Q)
    (hc : 0 ≤ c ∧ c < 2 ^ 128) (hc' : 0 ≤ c' ∧ c' < 2 ^ 128) (hne : c ≠ c')
    (hr : InRange k r) (hr' : InRange k r')
    (h : verifyResponse σ t1 com c r = .ok true) (h' : verifyResponse σ t1 com c' r' = .ok true) :
    ∃ x r : Int, s.com.val = x • s.g.val + r • s.h.val ∧ 0 ≤ x ∧ x < 2 ^ s.numBits := by
  obtain ⟨S, k', hdig, hall⟩ := verifyResponse_stmt hd h
  obtain ⟨_, hcon, hval⟩ := digestedTop_ext hdig
  obtain rfl : k = k' := Except.ok.inj (hk.symm.trans hcon)
  rw [hall] at h h'
  obtain ⟨X, hX, _⟩ := C19_extraction_partial σ k com r r' c c' Q (PowerTwo.toAnd s σ v k hk).1 hkill hQ hc hc' hne
    hr hr' h h'
  exact C37_witness_partial s σ v k X hn hk hval hX

/-- **C37** is violated: for every commitment `com` whatsoever, the verifier's statement (built without the values
of `x` and `r`) has a proof that is accepted.  Its bit commitments are `n` times the identity, followed by one
that the statement says nothing about. -/
theorem C37_forgery (env : Env E) (s : PowerTwo E) (σ : Store) (msg : String) (Q : Nat)
    (hp : s.isProver = false) (hn : 2 ≤ s.numBits) (hc : s.com.grp = s.g.grp) (hh : s.h.grp = s.g.grp)
    (ho : s.g.grp.order ≠ 0) (hodd : Q % 2 = 1) (hQ : (Q : Int) • s.com.val = 0) :
    ∃ (nizk : NIZK E) (u : Int),
      nizk.precommitment = .dict
        [("Cs", .list (List.replicate s.numBits (.pt s.g.grp.inf) ++ [.pt (Pt.smul u s.com)])),
          ("rand", .int 0)] ∧
      verify env σ s.stmt nizk msg = .ok true := by
  obtain ⟨u, w, hu⟩ : IsCoprime ((2 : Int) ^ s.numBits) (Q : Int) := by
    apply IsCoprime.pow_left
    exact ⟨-((Q / 2 : Nat) : Int), 1, by omega⟩
  set v : Val E := .dict
    [("Cs", .list (List.replicate s.numBits (.pt s.g.grp.inf) ++ [.pt (Pt.smul u s.com)])), ("rand", .int 0)]
    with hv
  set cs : List (Pt E) := List.replicate s.numBits s.g.grp.inf with hcs
  have hl : v.lookup "Cs" = .ok (.list ((cs ++ [Pt.smul u s.com]).map .pt)) := by
    simp [hv, hcs, Val.lookup, List.map_replicate]
  have hr : v.lookup "rand" = .ok (.int 0) := rfl
  have hval : s.validate v = .ok () := by
    refine (PowerTwo.validate_iff s v).mpr ⟨0, _, cs ++ [Pt.smul u s.com], hr, hl, rfl, ?_, hc, hh, ?_⟩
    · intro c hm
      rw [List.mem_append] at hm
      rcases hm with hm | hm
      · rw [List.eq_of_mem_replicate hm]; rfl
      · rw [List.mem_singleton] at hm; subst hm; exact hc
    · simp only [List.map_append, List.map_cons, List.map_nil, hornerE_append, hcs, List.map_replicate]
      rw [show s.g.grp.inf.val = (0 : E) from rfl, hornerE_zero]
      simp only [hornerE, Pt.smul, smul_zero, add_zero, zero_add, zero_smul, List.length_replicate]
      rw [← mul_smul, show (2 : Int) ^ s.numBits * u = 1 - w * Q by linarith, sub_smul, one_smul, mul_smul, hQ]
      simp
  have hcon : s.construct σ v = .ok (.and false (PowerTwo.build σ s cs s.rands none)) := by
    unfold PowerTwo.construct PowerTwo.proverBits
    simp only [hp, Bool.false_eq_true, if_false, bind_ok]
    rw [PowerTwo.bitProofs_of hl s.rands 0 none cs (by simp [hcs, PowerTwo.numBits]) ?_ ?_ (by simp)]
    · have := PowerTwo.build_length (σ := σ) (s := s) s.rands cs none (by simp [hcs, PowerTwo.numBits]) (by simp)
      rw [bind_ok]
      unfold mkAnd
      rw [if_neg (by rw [this]; unfold PowerTwo.numBits at hn; omega)]
    · intro c hm
      rw [List.eq_of_mem_replicate hm]; rfl
    · intro j c hj
      simp only [Nat.zero_add, Val.index]
      rw [List.map_append, List.getElem?_append_left, List.getElem?_map, hj]
      · rfl
      · have := (List.getElem?_eq_some_iff.mp hj).1
        simpa using this
  have hmem : ∀ t ∈ PowerTwo.build σ s cs s.rands none, ∃ rand bit,
      t = .or false (PowerTwo.clauses σ s s.g.grp.inf rand bit) := by
    intro t ht
    obtain ⟨c, hm, rand, _, bit, rfl⟩ := PowerTwo.mem_build _ _ _ _ ht
    exact ⟨rand, bit, by rw [List.eq_of_mem_replicate hm]⟩
  have hsolidL : ∀ ts : List (Core E), (∀ t ∈ ts, Solid t) → SolidL ts := by
    intro ts
    induction ts with
    | nil => intro _; trivial
    | cons t ts ih => exact fun h => ⟨h t (by simp), ih fun t ht => h t (by simp [ht])⟩
  have hsolid : Solid (.and false (PowerTwo.build σ s cs s.rands none)) := by
    refine ⟨?_, hsolidL _ fun t ht => ?_⟩
    · have := (PowerTwo.toAnd s σ v _ hcon).1
      exact this.1
    · obtain ⟨rand, bit, rfl⟩ := hmem t ht
      simp [PowerTwo.clauses, Solid, SolidL, Grp.inf, hh, ho]
  have hholds : Holds σ (.and false (PowerTwo.build σ s cs s.rands none)) (fun _ => 0) := by
    refine .all _ _ _ fun t ht => ?_
    obtain ⟨rand, bit, rfl⟩ := hmem t ht
    refine .any _ _ _ (fun _ => 0) _ (List.mem_cons_self ..) (.rep _ _ ?_ ?_)
    · simp [Grp.inf, hh]
    · simp [Grp.inf]
  obtain ⟨nizk, h1, h2⟩ := accepted_of_holds env σ s.stmt v _ _ (fun _ => 0) msg
    (.inr ⟨by simp [hv], .ext _ v _ hcon hval⟩) hsolid hholds ⟨_, rfl⟩
  exact ⟨nizk, u, h1, h2⟩

/-- Independent bases `g = (1,0)` and `h = (0,1)` in `(ℤ/7ℤ)²`: the commitment `(5, 0)` opens only to values that
are 5 modulo 7. -/
def exIndep : PowerTwo (ZMod 7 × ZMod 7) :=
  ⟨⟨Ex.G, (5, 0)⟩, ⟨Ex.G, (1, 0)⟩, ⟨Ex.G, (0, 1)⟩, 0, 1, false, [2, 3]⟩

/-- **C37** A false statement with an accepted proof: `com` does not open to any value in `[0, 4)`. -/
theorem C37_violated (env : Env (ZMod 7 × ZMod 7)) (σ : Store) (msg : String) :
    ∃ (s : PowerTwo (ZMod 7 × ZMod 7)) (nizk : NIZK (ZMod 7 × ZMod 7)),
      verify env σ s.stmt nizk msg = .ok true ∧
      ¬ ∃ x r : Int, s.com.val = x • s.g.val + r • s.h.val ∧ 0 ≤ x ∧ x < 2 ^ s.numBits := by
  obtain ⟨nizk, u, _, h⟩ := C37_forgery env exIndep σ msg 7 rfl (by decide) rfl rfl (by decide) rfl (by decide)
  refine ⟨exIndep, nizk, h, ?_⟩
  rintro ⟨x, r, h1, h2, h3⟩
  have hx : x = 0 ∨ x = 1 ∨ x = 2 ∨ x = 3 := by
    have h3' : x < 4 := h3
    omega
  have h4 := congrArg Prod.fst h1
  simp only [exIndep, Prod.fst_add, Prod.smul_fst, smul_zero, add_zero] at h4
  rcases hx with rfl | rfl | rfl | rfl <;> revert h4 <;> decide

/-! ### C39 -/

/-- **C39** is violated: for every range with at most two elements, every heap, every value of the secret (also
those in the range) and every dictionary of values, `prove()` raises. -/
theorem C39_small_ranges_fail (env : Env E) (σ σ1 : Store) (com g h : Pt E) (a b : Int) (x r : Sec) (next : Nat)
    (t : Stmt E) (hab : a < b) (hsmall : b - a ≤ 2)
    (hs : rangeStmt σ com g h a b x r next = .ok (σ1, t)) (d : Dict Int) (msg : String) (w : World) :
    ∃ e, prove (LeafProver E) env t d msg w = .error e := by
  cases hp : prove (LeafProver E) env t d msg w with
  | error e => exact ⟨e, rfl⟩
  | ok out =>
    exfalso
    obtain ⟨c, com1, com2, _, _, rfl, rfl, rfl, rfl, rfl⟩ := rangeStmt_ok hs
    obtain ⟨_, _, _, _, _, _, _, _, _, _, hcon, _⟩ := prove_two_ext (PowerTwo.toAnd _) (PowerTwo.toAnd _) hp
    have := PowerTwo.construct_small hcon
    have h2 := (rangeBits_lt_two hab).mpr hsmall
    simp only [mkPowerTwo, PowerTwo.numBits, freshSecs, List.length_map, List.length_range] at this
    omega

/-- The hypotheses are met by the range `[2, 4)` with `x = 2`, `r = 3`, `1 = 2·1 + 3·2` in `ℤ/7ℤ`: a true
statement. -/
example : (2 : Int) < 4 ∧ (4 : Int) - 2 ≤ 2 ∧ (∃ t, rangeStmt Ex.σ (Ex.P 1) (Ex.P 1) (Ex.P 2) 2 4 0 1 3 =
    .ok (rangeStore Ex.σ 2 4 0 3 4, t)) ∧ Ex.σ.value 0 = some 2 ∧ Ex.σ.value 1 = some 3 ∧
    (Ex.P 1).val = (2 : Int) • (Ex.P 1).val + (3 : Int) • (Ex.P 2).val :=
  ⟨by decide, by decide, rangeStmt_exists rfl rfl, rfl, rfl, by decide⟩

/-! ### C40 -/

/-- The precommitment of a power-two range statement raises when the value is not in `[0, 2^n)`. -/
theorem powerTwo_out_of_range {s : PowerTwo E} {w w' : World} {v : Val E} {x : Int}
    (hx : w.store.value s.x = some x) (h : s.precommit w = .ok (v, w')) : 0 ≤ x ∧ x < 2 ^ s.numBits := by
  by_contra hr
  by_cases hp : s.isProver = true
  · rw [PowerTwo.precommit_error hp hx (by omega)] at h
    cases h
  · unfold PowerTwo.precommit at h
    rw [pm_getStore_bind, pm_liftE_bind_iff] at h
    obtain ⟨_, h, _⟩ := h
    simp [PowerTwo.value, hp] at h

/-- **C40** If the value of `x` at the construction of the range statement is outside `[a, b)`, `prove()` raises,
for all values passed to it (they cannot be about the statement's own secrets, which have the addresses `next`,
`next + 1`), all messages, all randomness, and all heaps in which those two secrets have kept their values. -/
theorem C40_prove (env : Env E) (σ σ1 : Store) (com g h : Pt E) (a b v : Int) (x r : Sec) (next : Nat)
    (t : Stmt E) (hab : a < b) (hv : σ.value x = some v) (hout : v < a ∨ b ≤ v)
    (hs : rangeStmt σ com g h a b x r next = .ok (σ1, t)) (d : Dict Int)
    (hd : ∀ kv ∈ d, kv.1 ≠ next ∧ kv.1 ≠ next + 1) (msg : String) (w : World)
    (hw : w.store.value next = σ1.value next ∧ w.store.value (next + 1) = σ1.value (next + 1)) :
    ∃ e, prove (LeafProver E) env t d msg w = .error e := by
  cases hp : prove (LeafProver E) env t d msg w with
  | error e => exact ⟨e, rfl⟩
  | ok out =>
    exfalso
    obtain ⟨c, com1, com2, _, _, rfl, rfl, rfl, rfl, rfl⟩ := rangeStmt_ok hs
    obtain ⟨w1, v1, w1', k1, w2, v2, w2', k2, e1, e2, _, e3, e4, _⟩ :=
      prove_two_ext (PowerTwo.toAnd _) (PowerTwo.toAnd _) hp
    have hk1 : (next : Nat) ∉ d.map Prod.fst := by
      intro hm
      obtain ⟨kv, h1, h2⟩ := List.mem_map.mp hm
      exact (hd kv h1).1 h2
    have hk2 : (next + 1 : Nat) ∉ d.map Prod.fst := by
      intro hm
      obtain ⟨kv, h1, h2⟩ := List.mem_map.mp hm
      exact (hd kv h1).2 h2
    have hne : (next : Nat) ≠ next + 1 := Nat.ne_of_lt (Nat.lt_succ_self _)
    have f1 : w1.store.value next = some (v - a) := by
      rw [e1, (updateSecretValues_value d _ w.store next).2 hk1, hw.1]
      simp only [rangeStore, hv, Store.setValue]
      rw [if_neg hne, if_pos trivial]
    have f2 : w2.store.value (next + 1) = some (v - a + rangeOffset a b) := by
      have hfr := PowerTwo.precommit_frame e2 (next + 1) (by
        simp only [mkPowerTwo, mem_freshSecs]
        omega)
      have hfr' : w1'.store.value (next + 1) = w1.store.value (next + 1) := congrArg Prod.snd hfr
      rw [e3, (updateSecretValues_value d _ w.store _).2 hk2, hfr', e1, (updateSecretValues_value d _ w.store _).2 hk2, hw.2]
      simp only [rangeStore, hv, Store.setValue]
      rw [if_pos trivial]
    have g1 := powerTwo_out_of_range f1 e2
    have g2 := powerTwo_out_of_range f2 e4
    simp only [mkPowerTwo, PowerTwo.numBits, freshSecs, List.length_map, List.length_range] at g1 g2
    have := rangeBits_bounds hab
    unfold rangeOffset at g2
    omega

/-- The hypotheses are met by `x = 2`, the range `[3, 7)` and no dictionary. -/
example : (3 : Int) < 7 ∧ Ex.σ.value 0 = some 2 ∧ (∃ t, rangeStmt Ex.σ (Ex.P 1) (Ex.P 1) (Ex.P 2) 3 7 0 1 3 =
    .ok (rangeStore Ex.σ 3 7 0 3 4, t)) :=
  ⟨by decide, rfl, rangeStmt_exists rfl rfl⟩

/-- **C40** More precisely: if also the randomizer has a value, then `precommit()` of one of the two power-two
statements of the conjunction raises the exception of the bit decomposition. -/
theorem C40_precommit (σ σ1 : Store) (com g h : Pt E) (a b v rv : Int) (x r : Sec) (next : Nat)
    (t : Stmt E) (hab : a < b) (hv : σ.value x = some v) (hr : σ.value r = some rv) (hfresh : r < next)
    (hout : v < a ∨ b ≤ v) (hs : rangeStmt σ com g h a b x r next = .ok (σ1, t)) :
    ∃ (c : DLRep E) (e1 e2 : Ext E), t = .and false [.leaf (.dlrep c), .leaf (.ext e1), .leaf (.ext e2)] ∧
      ∀ w : World, w.store.value next = σ1.value next → w.store.value (next + 1) = σ1.value (next + 1) →
        e1.spec.precommit w = .error .generic ∨ e2.spec.precommit w = .error .generic := by
  obtain ⟨c, com1, com2, _, _, rfl, rfl, rfl, rfl, rfl⟩ := rangeStmt_ok hs
  refine ⟨_, _, _, rfl, fun w h1 h2 => ?_⟩
  have hne : (next : Nat) ≠ next + 1 := Nat.ne_of_lt (Nat.lt_succ_self _)
  have n1 : (r : Nat) ≠ next := Nat.ne_of_lt hfresh
  have n2 : (r : Nat) ≠ next + 1 := Nat.ne_of_lt (Nat.lt_succ_of_lt hfresh)
  have f1 : (rangeStore σ a b x next (next + 1)).value next = some (v - a) := by
    simp only [rangeStore, hv, Store.setValue]
    rw [if_neg hne, if_pos trivial]
  have f2 : (rangeStore σ a b x next (next + 1)).value (next + 1) = some (v - a + rangeOffset a b) := by
    simp only [rangeStore, hv, Store.setValue]
    rw [if_pos trivial]
  have f3 : (rangeStore σ a b x next (next + 1)).value r = some rv := by
    simp only [rangeStore, hv, Store.setValue]
    rw [if_neg n2, if_neg n1, hr]
  rw [f1] at h1
  rw [f2] at h2
  have hb := rangeBits_bounds hab
  by_cases hx : v - a < 0 ∨ 2 ^ rangeBits a b ≤ v - a
  · left
    refine PowerTwo.precommit_error (s := mkPowerTwo _ _ g h next r (freshSecs (next + 2) (rangeBits a b))) ?_ h1 ?_
    · simp [mkPowerTwo, f1, f3]
    · simpa [mkPowerTwo, PowerTwo.numBits, freshSecs] using hx
  · right
    refine PowerTwo.precommit_error
      (s := mkPowerTwo _ _ g h (next + 1) r (freshSecs (next + 2 + rangeBits a b) (rangeBits a b))) ?_ h2 ?_
    · simp [mkPowerTwo, f2, f3]
    · simp only [mkPowerTwo, PowerTwo.numBits, freshSecs, List.length_map, List.length_range]
      unfold rangeOffset
      omega

/-- The hypotheses are met by `x = 2`, `r = 3` and the range `[3, 7)`. -/
example : (3 : Int) < 7 ∧ Ex.σ.value 0 = some 2 ∧ Ex.σ.value 1 = some 3 ∧ (1 : Nat) < 3 ∧
    (∃ t, rangeStmt Ex.σ (Ex.P 1) (Ex.P 1) (Ex.P 2) 3 7 0 1 3 = .ok (rangeStore Ex.σ 3 7 0 3 4, t)) :=
  ⟨by decide, rfl, rfl, by decide, rangeStmt_exists rfl rfl⟩

/-! ### C51 -/

/-- **C51** Let `g`, `h` be independent modulo their order `q`, at least four times as large as the range.  Whatever
the precommitment of a proof about `RangeStmt(com, g, h, a, b, x, r)`: if it passes validation, holds exactly as
many bit commitments as there are bits, and the plain statement the verifier makes of it is true for the values
`X`, then the value of `x` is, modulo `q`, in `[a, b)`.  Missing: the number of commitments is not checked by the
code, see `C37_forgery`. -/
theorem C51_witness_partial (σ0 σ1 σ : Store) (com g h : Pt E) (a b : Int) (x r : Sec) (next : Nat) (t : Stmt E)
    (hab : a < b) (hs : rangeStmt σ0 com g h a b x r next = .ok (σ1, t))
    (hind : ∀ m n : Int, m • g.val + n • h.val = 0 → (g.grp.order : Int) ∣ m)
    (hq : 4 * (b - a) ≤ g.grp.order)
    (v : Val E) (S : Skel E) (k : Core E) (hd : DigestedTop σ t v S k)
    (hn : ∀ i, i = 1 ∨ i = 2 → ∃ vi l es, v.index i = .ok vi ∧ vi.lookup "Cs" = .ok l ∧ l.elems = .ok es ∧
      es.length = rangeBits a b)
    (X : Key → Int) (hX : Holds σ k X) :
    ∃ y : Int, a ≤ y ∧ y < b ∧ (g.grp.order : Int) ∣ X (σ.key x) - y := by
  obtain ⟨c, com1, com2, _, _, rfl, rfl, rfl, rfl, rfl⟩ := rangeStmt_ok hs
  obtain ⟨vi, Ss, ks, hS, hkl, hvi, rfl, _, hdi⟩ := digestedTop_and (e := ⟨_, false, .none, none, none⟩) hd
    (List.mem_cons_of_mem _ (List.mem_cons_self ..))
  match ks, hkl, Ss, hS with
  | [k0, k1, k2], _, [S0, S1, S2], _ =>
    have d0 := (digested_rep (hdi 0 _ _ _ rfl rfl rfl)).1
    have d1 := digested_ext (hdi 1 _ _ _ rfl rfl rfl)
    have d2 := digested_ext (hdi 2 _ _ _ rfl rfl rfl)
    subst d0
    cases hX with
    | all _ _ _ hX =>
    have x0 := hX _ (List.mem_cons_self ..)
    have cnt : ∀ i, i = 1 ∨ i = 2 → ∃ l es, (vi i).lookup "Cs" = .ok l ∧ l.elems = .ok es ∧
        es.length = rangeBits a b := by
      intro i hi
      obtain ⟨u, l, es, h1, h2, h3, h4⟩ := hn i hi
      have hlt : i < 3 := by omega
      obtain rfl : u = vi i := Except.ok.inj (h1.symm.trans (hvi i hlt))
      exact ⟨l, es, h2, h3, h4⟩
    obtain ⟨x1, r1, e1, b1, b1'⟩ := C37_witness_partial _ σ (vi 1) k1 X
      (by simpa [mkPowerTwo, PowerTwo.numBits, freshSecs] using cnt 1 (.inl rfl)) d1.1 d1.2 (hX k1 (by simp))
    obtain ⟨x2, r2, e2, b2, b2'⟩ := C37_witness_partial _ σ (vi 2) k2 X
      (by simpa [mkPowerTwo, PowerTwo.numBits, freshSecs] using cnt 2 (.inr rfl)) d2.1 d2.2 (hX k2 (by simp))
    simp only [mkPowerTwo, PowerTwo.numBits, freshSecs, List.length_map, List.length_range] at e1 e2 b1' b2'
    cases x0 with
    | rep _ _ _ x0 =>
    simp only [List.zipWith_cons_cons, List.zipWith_nil_right, List.sum_cons, List.sum_nil, add_zero] at x0
    obtain ⟨m1, hm1⟩ := hind (X (σ.key x) - a - x1) (X (σ.key r) - r1) (by
      rw [x0] at e1
      have := sub_eq_zero.mpr e1
      rw [← this]
      simp only [sub_smul]; abel)
    obtain ⟨m2, hm2⟩ := hind (X (σ.key x) - a + rangeOffset a b - x2) (X (σ.key r) - r2) (by
      rw [x0] at e2
      have := sub_eq_zero.mpr e2
      rw [← this]
      simp only [sub_smul, add_smul]; abel)
    have hu := rangeBits_upper hab
    have hl := rangeBits_bounds hab
    unfold rangeOffset at hm2
    have hdiff : x2 - x1 - (2 ^ rangeBits a b - (b - a)) = (g.grp.order : Int) * (m1 - m2) := by
      rw [mul_sub, ← hm1, ← hm2]; ring
    have hz : m1 - m2 = 0 := by
      by_contra hne
      have hpos : (0 : Int) < g.grp.order := by omega
      rcases lt_or_gt_of_ne hne with hlt | hgt
      · have := mul_le_mul_of_nonneg_left (show m1 - m2 ≤ -1 by omega) hpos.le
        omega
      · have := mul_le_mul_of_nonneg_left (show 1 ≤ m1 - m2 by omega) hpos.le
        omega
    rw [hz, mul_zero] at hdiff
    exact ⟨x1 + a, by omega, by omega, m1, by rw [← hm1]; ring⟩

/-- Independent bases in `(ℤ/13ℤ)²`. -/
def exG13 : Grp := ⟨0, 13, true⟩
/-- See `exG13`. -/
def exPt (x y : ZMod 13) : Pt (ZMod 13 × ZMod 13) := ⟨exG13, (x, y)⟩

/-- Without values; secret `n` is called `xx…x` (`n` letters). -/
def exNoValues : Store := { exNeStore with value := fun _ => none }

/-- Commitments to the bits of 1 (all randomizers 0). -/
def exV1 : Val (ZMod 13 × ZMod 13) :=
  .dict [("Cs", .list [.pt (exPt 1 0), .pt (exPt 0 0)]), ("rand", .int 0)]
/-- Commitments to the bits of 2. -/
def exV2 : Val (ZMod 13 × ZMod 13) :=
  .dict [("Cs", .list [.pt (exPt 0 0), .pt (exPt 1 0)]), ("rand", .int 0)]
/-- The precommitment of a proof that 1 is in `[0, 3)`. -/
def exRange3Pre : Val (ZMod 13 × ZMod 13) := .list [.none, exV1, exV2]

/-- Secret 0 has value 1, all others 0. -/
def exRange3Val : Key → Int := fun κ => if κ.1 = "" then 1 else 0

/-- The first power-two statement. -/
def exP1 : PowerTwo (ZMod 13 × ZMod 13) := ⟨exPt 1 0, exPt 1 0, exPt 0 1, 2, 1, false, [4, 5]⟩
/-- The second power-two statement. -/
def exP2 : PowerTwo (ZMod 13 × ZMod 13) := ⟨exPt 2 0, exPt 1 0, exPt 0 1, 3, 1, false, [6, 7]⟩

/-- The hypotheses of **C51** are met. -/
example : ∃ t S k, rangeStmt exNoValues (exPt 1 0) (exPt 1 0) (exPt 0 1) 0 3 0 1 2 =
      .ok (rangeStore exNoValues 0 3 0 2 3, t) ∧
    (∀ m n : Int, m • (exPt 1 0).val + n • (exPt 0 1).val = 0 → ((exPt 1 0).grp.order : Int) ∣ m) ∧
    4 * ((3 : Int) - 0) ≤ (exPt 1 0).grp.order ∧
    DigestedTop exNoValues t exRange3Pre S k ∧
    (∀ i, i = 1 ∨ i = 2 → ∃ vi l es, exRange3Pre.index i = .ok vi ∧ vi.lookup "Cs" = .ok l ∧ l.elems = .ok es ∧
      es.length = rangeBits 0 3) ∧
    Holds exNoValues k exRange3Val := by
  obtain ⟨k1, a1, b1, c1⟩ : ∃ k, exP1.construct exNoValues exV1 = .ok k ∧
      exP1.validate exV1 = .ok () ∧
      Holds exNoValues k exRange3Val := by
    refine ⟨_, rfl, by decide, .all _ _ _ ?_⟩
    intro t ht
    simp only [List.mem_cons, List.not_mem_nil, or_false] at ht
    rcases ht with rfl | rfl
    · exact .any _ _ _ exRange3Val _ (List.mem_cons_of_mem _ (List.mem_cons_self ..))
        (.rep _ _ (by decide) (by decide))
    · exact .any _ _ _ exRange3Val _ (List.mem_cons_self ..) (.rep _ _ (by decide) (by decide))
  obtain ⟨k2, a2, b2, c2⟩ : ∃ k, exP2.construct exNoValues exV2 = .ok k ∧
      exP2.validate exV2 = .ok () ∧
      Holds exNoValues k exRange3Val := by
    refine ⟨_, rfl, by decide, .all _ _ _ ?_⟩
    intro t ht
    simp only [List.mem_cons, List.not_mem_nil, or_false] at ht
    rcases ht with rfl | rfl
    · exact .any _ _ _ exRange3Val _ (List.mem_cons_self ..) (.rep _ _ (by decide) (by decide))
    · exact .any _ _ _ exRange3Val _ (List.mem_cons_of_mem _ (List.mem_cons_self ..))
        (.rep _ _ (by decide) (by decide))
  refine ⟨.and false [.leaf (.dlrep ⟨exPt 1 0, [exPt 1 0, exPt 0 1], [0, 1], [], false⟩), exP1.stmt, exP2.stmt],
    .all [.rep (exPt 1 0) [exPt 1 0, exPt 0 1] 2, .ext "PowerTwoRangeStmt" exV1 (shape k1),
      .ext "PowerTwoRangeStmt" exV2 (shape k2)],
    .and false [.leaf ⟨exPt 1 0, [exPt 1 0, exPt 0 1], [0, 1], [], false⟩, k1, k2], rfl, ?_, by decide,
    .inr ⟨by simp [exRange3Pre], .all _ _ _ (fun i => match exRange3Pre.index i with | .ok v => v | _ => .none) _ _
      (by simp [exRange3Pre]) rfl rfl ?_ ?_⟩, ?_, ?_⟩
  · intro m n h
    have := congrArg Prod.fst h
    rw [Prod.fst_add, Prod.smul_fst, Prod.smul_fst] at this
    simp only [exPt, smul_zero, add_zero, zsmul_eq_mul, mul_one, Prod.fst_zero] at this
    exact (ZMod.intCast_zmod_eq_zero_iff_dvd m 13).mp this
  · intro i hi
    match i, hi with
    | 0, _ => rfl
    | 1, _ => rfl
    | 2, _ => rfl
  · intro i t S k h1 h2 h3
    match i with
    | 0 =>
      cases h1; cases h2; cases h3
      exact .rep _ _
    | 1 =>
      cases h1; cases h2; cases h3
      exact .ext _ _ _ a1 b1
    | 2 =>
      cases h1; cases h2; cases h3
      exact .ext _ _ _ a2 b2
    | i + 3 => simp at h1
  · rintro i (rfl | rfl)
    · exact ⟨_, _, _, rfl, rfl, rfl, by decide⟩
    · exact ⟨_, _, _, rfl, rfl, rfl, by decide⟩
  · refine .all _ _ _ fun t ht => ?_
    simp only [List.mem_cons, List.not_mem_nil, or_false] at ht
    rcases ht with rfl | rfl | rfl
    · exact .rep _ _ (by decide) (by decide)
    · exact c1
    · exact c2

/-! ### C50 -/

/-- **C50** Without a value of `x` — as on the verifier's side — `RangeOnlyStmt(a, b, x)` raises. -/
theorem C50_needs_value (g h : Pt E) (a b : Int) (x : Sec) (next : Nat) (w : World) (hx : x ≠ next)
    (ho : g.grp.order ≠ 0) (hv : w.store.value x = none) :
    rangeOnlyStmt g h a b x next w = .error .incompleteValues := by
  unfold rangeOnlyStmt
  obtain ⟨r, w1, hd⟩ : ∃ r w1, draw g.grp.order w = .ok (r, w1) := by
    unfold draw
    rw [if_neg ho]
    exact ⟨_, _, rfl⟩
  have hs := (draw_ok hd).2.2.2
  rw [pm_bind_eq (w := w) hd, pm_getStore_bind, pm_setStore_bind]
  have : (w1.store.setValue next r).value x = none := by
    simp only [Store.setValue, if_neg hx, hs, hv]
  simp only [this]
  rfl

example : rangeOnlyStmt (Ex.P 1) (Ex.P 2) 2 7 0 5 ⟨Ex.σ0, fun _ => 0⟩ = .error .incompleteValues :=
  C50_needs_value _ _ _ _ _ _ _ (by decide) (by decide) rfl

/-- What `RangeOnlyStmt` returns: the range statement about a commitment with a random number of its own. -/
theorem rangeOnly_ok {g h : Pt E} {a b : Int} {x : Sec} {next : Nat} {w w' : World} {t : Stmt E}
    (hs : rangeOnlyStmt g h a b x next w = .ok (t, w')) (hx : x ≠ next) :
    ∃ (c : DLRep E) (e1 e2 : Ext E) (xv : Int),
      t = .and false [.leaf (.dlrep c), .leaf (.ext e1), .leaf (.ext e2)] ∧ w.store.value x = some xv ∧
      c.lhs.val = xv • g.val + ((w.rng 0 % g.grp.order : Nat) : Int) • h.val := by
  unfold rangeOnlyStmt at hs
  obtain ⟨r, w1, h1, hs⟩ := pm_bind.mp hs
  rw [pm_getStore_bind, pm_setStore_bind] at hs
  have hd := draw_ok h1
  have hr : r = ((w.rng 0 % g.grp.order : Nat) : Int) := by
    unfold draw at h1
    rw [if_neg (by omega)] at h1
    injection h1 with h1
    exact (Prod.mk.inj h1).1.symm
  have hval : (w1.store.setValue next r).value x = w.store.value x := by
    simp only [Store.setValue, if_neg hx, hd.2.2.2]
  have hvaln : (w1.store.setValue next r).value next = some r := by
    simp [Store.setValue]
  rw [hval, hvaln] at hs
  cases hv : w.store.value x with
  | none =>
    rw [hv] at hs
    obtain ⟨_, _, hs, _⟩ := pm_bind.mp hs
    exact (raise_ne.mp hs).elim
  | some xv =>
    simp only [hv] at hs
    rw [pm_liftE_bind_iff] at hs
    obtain ⟨com, hcom, hs⟩ := hs
    rw [pm_liftE_bind_iff] at hs
    obtain ⟨⟨σ2, t2⟩, hst, hs⟩ := hs
    simp only at hs
    rw [pm_setStore_bind, pm_pure_iff] at hs
    obtain ⟨rfl, _⟩ := Prod.mk.inj hs
    obtain ⟨c, com1, com2, _, _, _, rfl, rfl, rfl, rfl⟩ := rangeStmt_ok hst
    refine ⟨_, _, _, xv, rfl, rfl, ?_⟩
    unfold Pt.add at hcom
    split at hcom
    · injection hcom with hcom
      simp only [← hcom, Pt.smul, hr]
    · cases hcom

/-- **C50** A proof made for one `RangeOnlyStmt` object gets a verdict from another one — e.g. built in another
process, with the same bases, range and value — only if both drew the same random number, provided that the
statement hash has no collisions and `h` has order `q`. -/
theorem C50_not_shareable (env : Env E) (hinj : Function.Injective env.digest) (g h : Pt E) (a b : Int)
    (x x' : Sec) (next next' : Nat) (w w1 w' w1' : World) (t t' : Stmt E) (hx : x ≠ next) (hx' : x' ≠ next')
    (hs : rangeOnlyStmt g h a b x next w = .ok (t, w1)) (hs' : rangeOnlyStmt g h a b x' next' w' = .ok (t', w1'))
    (hsame : w.store.value x = w'.store.value x')
    (hq : ∀ n : Int, n • h.val = 0 → (g.grp.order : Int) ∣ n)
    (σ σ' : Store) (nizk : NIZK E) (msg msg' : String) (v v' : Bool)
    (hv : verify env σ t nizk msg = .ok v) (hv' : verify env σ' t' nizk msg' = .ok v') :
    w.rng 0 % g.grp.order = w'.rng 0 % g.grp.order := by
  obtain ⟨c, e1, e2, xv, rfl, hxv, hc⟩ := rangeOnly_ok hs hx
  obtain ⟨c', e1', e2', xv', rfl, hxv', hc'⟩ := rangeOnly_ok hs' hx'
  obtain ⟨S, k, id, d1, i1, hh⟩ := C10_verdict_needs_hash env σ _ nizk msg v hv
  obtain ⟨S', k', id', d2, i2, hh'⟩ := C10_verdict_needs_hash env σ' _ nizk msg' v' hv'
  obtain rfl : id = id' := hinj (hh.symm.trans hh')
  obtain ⟨vi, Ss, ks, l1, l2, _, rfl, rfl, f⟩ := digestedTop_and (e := e1) d1 (by simp)
  obtain ⟨vi', Ss', ks', l1', l2', _, rfl, rfl, f'⟩ := digestedTop_and (e := e1') d2 (by simp)
  match ks, l2, Ss, l1, ks', l2', Ss', l1' with
  | k0 :: ks, _, S0 :: Ss, _, k0' :: ks', _, S0' :: Ss', _ =>
    have r1 := (digested_rep (f 0 _ _ _ rfl rfl rfl)).2
    have r2 := (digested_rep (f' 0 _ _ _ rfl rfl rfl)).2
    have hS := i1.2.1.symm.trans i2.2.1
    simp only [Skel.all.injEq, List.cons.injEq] at hS
    rw [r1, r2] at hS
    simp only [Skel.rep.injEq] at hS
    have hlhs := congrArg Pt.val hS.1.1
    rw [hsame, hxv'] at hxv
    injection hxv with hxv
    rw [hc, hc', hxv] at hlhs
    have hz := sub_eq_zero.mpr (add_left_cancel hlhs)
    rw [← sub_smul] at hz
    have hdvd := hq _ hz
    have hm : (w'.rng 0 % g.grp.order) % g.grp.order = (w.rng 0 % g.grp.order) % g.grp.order :=
      Nat.modEq_iff_dvd.mpr hdvd
    rw [Nat.mod_mod, Nat.mod_mod] at hm
    exact hm.symm

/-- Two objects that did draw the same number. -/
example : ∃ t w1, rangeOnlyStmt (Ex.P 1) (Ex.P 2) 2 7 0 5 ⟨Ex.σ, fun _ => 0⟩ = .ok (t, w1) := ⟨_, _, rfl⟩

/-! ### C52 -/

/-- **C52** is violated: a range statement built while `x` or `r` has no value cannot be proved later, whatever
values are passed to `prove()` or assigned to the secrets in the meantime. -/
theorem C52_late_values_fail (env : Env E) (σ σ1 : Store) (com g h : Pt E) (a b : Int) (x r : Sec) (next : Nat)
    (t : Stmt E) (hr : r < next) (hno : σ.value x = none ∧ σ.value next = none ∨ σ.value r = none)
    (hs : rangeStmt σ com g h a b x r next = .ok (σ1, t)) (d : Dict Int) (msg : String) (w : World) :
    ∃ e, prove (LeafProver E) env t d msg w = .error e := by
  cases hp : prove (LeafProver E) env t d msg w with
  | error e => exact ⟨e, rfl⟩
  | ok out =>
    exfalso
    obtain ⟨c, com1, com2, _, _, rfl, rfl, rfl, rfl, rfl⟩ := rangeStmt_ok hs
    obtain ⟨w1, v1, w1', k1, w2, v2, w2', k2, e1, e2, _, e3, e4, _⟩ :=
      prove_two_ext (PowerTwo.toAnd _) (PowerTwo.toAnd _) hp
    have n1 : (r : Nat) ≠ next := Nat.ne_of_lt hr
    have n2 : (r : Nat) ≠ next + 1 := Nat.ne_of_lt (Nat.lt_succ_of_lt hr)
    have hfalse : (mkPowerTwo (rangeStore σ a b x next (next + 1)) ⟨g.grp, com.val - a • g.val⟩ g h next r
        (freshSecs (next + 2) (rangeBits a b))).isProver = false := by
      simp only [mkPowerTwo, rangeStore, Bool.and_eq_false_iff]
      rcases hno with ⟨h1, h2⟩ | h1
      · simp [h1, h2]
      · right
        cases hv : σ.value x with
        | none => simp [h1]
        | some v =>
          simp only [Store.setValue]
          rw [if_neg n2, if_neg n1, h1]; rfl
    have e2' : PowerTwo.precommit _ w1 = .ok (v1, w1') := e2
    unfold PowerTwo.precommit at e2'
    rw [pm_getStore_bind, pm_liftE_bind_iff] at e2'
    obtain ⟨_, e2', _⟩ := e2'
    simp [PowerTwo.value, hfalse] at e2'

/-- The hypotheses are met by a statement built without values; the dictionary may hold the values 2 and 3 that
make it true. -/
example : (∃ t, rangeStmt Ex.σ0 (Ex.P 1) (Ex.P 1) (Ex.P 2) 2 7 0 1 3 = .ok (rangeStore Ex.σ0 2 7 0 3 4, t)) ∧
    (Ex.σ0.value 0 = none ∧ Ex.σ0.value 3 = none ∨ Ex.σ0.value 1 = none) :=
  ⟨rangeStmt_exists rfl rfl, .inl ⟨rfl, rfl⟩⟩

end Zksk.Props
