import Verif.Props.Interview
import Verif.Props.Range
import Verif.Props.Fork
import Verif.Lemmas.BigPrime
import Verif.Lemmas.Tame

/-! # Soundness of range proofs in the interactive protocol (C51) -/

set_option linter.unusedSectionVars false

namespace Zksk.Props

open Spec

variable {E : Type} [AddCommGroup E] [DecidableEq E]

/-- Two accepted answers to different challenges, with the commitments the code does not count. -/
theorem range_extract {σ0 σ1 σ : Store} {com g h : Pt E} {a b : Int} {x r : Sec} {next : Nat} {t : Stmt E}
    (hab : a < b) (hs : rangeStmt σ0 com g h a b x r next = .ok (σ1, t))
    (hind : ∀ m n : Int, m • g.val + n • h.val = 0 → (g.grp.order : Int) ∣ m)
    (hq : 4 * (b - a) ≤ g.grp.order) (hall : ∀ y : E, (g.grp.order : Int) • y = 0) (hbig : BigFactors g.grp.order)
    {v cm r1 r2 : Val E} {S : Skel E} {k : Core E} (hD : Digested σ t v S k)
    (hn : ∀ i, i = 1 ∨ i = 2 → ∃ vi l es, v.index i = .ok vi ∧ vi.lookup "Cs" = .ok l ∧ l.elems = .ok es ∧
      es.length = rangeBits a b)
    (hr1 : InRange k r1) (hr2 : InRange k r2) {c1 c2 u : Int}
    (hu : u * (c1 - c2) % (g.grp.order : Int) = 1 % (g.grp.order : Int)) (hne : c1 % 2 ^ 128 ≠ c2 % 2 ^ 128)
    (v1 : verifyResponse σ k cm c1 r1 = .ok true) (v2 : verifyResponse σ k cm c2 r2 = .ok true) :
    ∃ X R y : Int, com.val = X • g.val + R • h.val ∧ a ≤ y ∧ y < b ∧ (g.grp.order : Int) ∣ X - y ∧
      ∀ y1 y2 : Int, Answered t r1 x (.int y1) → Answered t r2 x (.int y2) → X = u * (y1 - y2) := by
  have hleaf : EveryLeaf (LeafOK fun sp => ∃ s : PowerTwo E, sp = s.spec) t := by
    obtain ⟨c, com1, com2, _, _, rfl, rfl, rfl, rfl, rfl⟩ := rangeStmt_ok hs
    refine .all _ _ (by simp) fun t ht => ?_
    simp only [List.mem_cons, List.not_mem_nil, or_false] at ht
    rcases ht with rfl | rfl | rfl
    · exact .leaf _ rfl
    · exact .leaf _ ⟨_, rfl⟩
    · exact .leaf _ ⟨_, rfl⟩
  obtain ⟨X, hX, hocc⟩ := extract_any
    (digested_wellFormed (fun sp ⟨s, hs⟩ v k hc hv => by subst hs; exact (PowerTwo.toAnd s σ v k hc).1) hD hleaf)
    (killed_of_all hall k) hbig hu hne hr1 hr2 v1 v2
  have hDT : DigestedTop σ t v S k := .inr ⟨fun hv => by
    obtain ⟨vi, l, es, hi, _⟩ := hn 1 (.inl rfl)
    rw [hv] at hi
    simp [Val.index] at hi, hD⟩
  obtain ⟨y, y1, y2, y3⟩ := C51_witness_partial σ0 σ1 σ com g h a b x r next t hab hs hind hq v S k hDT hn X hX
  refine ⟨X (σ.key x), X (σ.key r), y, ?_, y1, y2, y3,
    fun z1 z2 a1 a2 => hocc x z1 z2 (digested_occ hD a1) (digested_occ hD a2)⟩
  obtain ⟨c, com1, com2, _, _, rfl, rfl, rfl, rfl, rfl⟩ := rangeStmt_ok hs
  obtain ⟨vi, Ss, ks, hS, hkl, _, rfl, _, hdi⟩ := digestedTop_and (e := ⟨_, false, .none, none, none⟩) hDT
    (List.mem_cons_of_mem _ (List.mem_cons_self ..))
  match ks, hkl, Ss, hS with
  | [k0, k1, k2], _, [S0, S1, S2], _ =>
    have d0 := (digested_rep (hdi 0 _ _ _ rfl rfl rfl)).1
    subst d0
    cases hX with
    | all _ _ _ hX =>
    have x0 := hX _ (List.mem_cons_self ..)
    cases x0 with
    | rep _ _ _ x0 =>
    simpa only [List.zipWith_cons_cons, List.zipWith_nil_right, List.sum_cons, List.sum_nil, add_zero] using x0

/-- There is one number that `com` can be opened to. -/
theorem range_unique {com g h : Pt E} {X X' R R' y : Int} (hind : ∀ m n : Int, m • g.val + n • h.val = 0 → (g.grp.order : Int) ∣ m)
    (hcom : com.val = X • g.val + R • h.val) (e : com.val = X' • g.val + R' • h.val) (h3 : (g.grp.order : Int) ∣ X' - y) :
    (g.grp.order : Int) ∣ X - y := by
  have := hind (X - X') (R - R') (by
    rw [hcom] at e
    have := sub_eq_zero.mpr e
    rw [← this]
    simp only [sub_smul]; abel)
  have h3 := dvd_add this h3
  rwa [show X - X' + (X' - y) = X - y by ring] at h3

/-- **C51** Let `g`, `h` be independent modulo their order `q`, at least four times as large as the range, with large
prime factors only.  Whoever convinces the verifier of `RangeStmt(com, g, h, a, b, x, r)` for two of the `2^128` challenges
knows an opening of `com` to a number that is in `[a, b)` modulo `q`: if `y1`, `y2` are their responses for `x`, it is
`u (y1 - y2)`.  Missing: the prover has sent one commitment per bit, and sub-challenges in the range of honest provers,
one per clause; the code checks neither, see `C37_forgery` and C19. -/
theorem C51_interactive_partial (env : Env E) (σ0 σ1 σ : Store) (com g h : Pt E) (a b : Int) (x r : Sec) (next : Nat) (t : Stmt E)
    (hab : a < b) (hs : rangeStmt σ0 com g h a b x r next = .ok (σ1, t))
    (hind : ∀ m n : Int, m • g.val + n • h.val = 0 → (g.grp.order : Int) ∣ m)
    (hq : 4 * (b - a) ≤ g.grp.order) (hall : ∀ y : E, (g.grp.order : Int) • y = 0) (hbig : BigFactors g.grp.order)
    (v : Val E) (hash : List UInt8) (cm : Val E) (answer : Int → Val E)
    (hn : ∀ i, i = 1 ∨ i = 2 → ∃ vi l es, v.index i = .ok vi ∧ vi.lookup "Cs" = .ok l ∧ l.elems = .ok es ∧
      es.length = rangeBits a b)
    (hr : ∀ S k, Digested σ t v S k → ∀ c : Fin (2 ^ 128), InRange k (answer c.val))
    (hmany : 1 < convinced env σ t v hash cm answer) :
    ∃ (c1 c2 : Fin (2 ^ 128)) (u X R y : Int), Convinced env σ t v hash cm answer c1 ∧ Convinced env σ t v hash cm answer c2 ∧
      u * ((c1.val : Int) - c2.val) % (g.grp.order : Int) = 1 % (g.grp.order : Int) ∧
      com.val = X • g.val + R • h.val ∧ a ≤ y ∧ y < b ∧ (g.grp.order : Int) ∣ X - y ∧
      ∀ y1 y2 : Int, Answered t (answer c1.val) x (.int y1) → Answered t (answer c2.val) x (.int y2) → X = u * (y1 - y2) := by
  obtain ⟨⟨c1, h1⟩, ⟨c2, h2⟩, hne⟩ := (Finite.one_lt_card_iff_nontrivial.mp hmany).exists_pair_ne
  have hc : (c1.val : Int) ≠ c2.val := fun he => hne (Subtype.ext (Fin.ext (by exact_mod_cast he)))
  obtain ⟨t1, p1, _, _, v1⟩ := interview_iff.mp h1
  obtain ⟨t2, p2, _, _, v2⟩ := interview_iff.mp h2
  rw [p1] at p2
  cases p2
  obtain ⟨S, k, hD, hk⟩ := verifyResponse_process p1 v1
  rw [hk] at v1 v2
  obtain ⟨u, q, huq⟩ := hbig ((c1.val : Int) - c2.val) (by omega) (by
    have := c1.2
    have := c2.2
    rw [abs_lt]; constructor <;> omega)
  have hu : u * ((c1.val : Int) - c2.val) % (g.grp.order : Int) = 1 % (g.grp.order : Int) :=
    Int.emod_eq_emod_iff_emod_sub_eq_zero.mpr (Int.emod_eq_zero_of_dvd ⟨-q, by linarith⟩)
  obtain ⟨X, R, y, g1, g2, g3, g4, g5⟩ := range_extract hab hs hind hq hall hbig hD hn (hr S k hD c1) (hr S k hD c2) hu
    (by
      rw [Int.emod_eq_of_lt (by positivity) (by exact_mod_cast c1.2), Int.emod_eq_of_lt (by positivity) (by exact_mod_cast c2.2)]
      exact hc) v1 v2
  exact ⟨c1, c2, u, X, R, y, h1, h2, hu, g1, g2, g3, g4, g5⟩

/-- **C51** If `com` is a commitment to a number outside the range, at most one of the `2^128` challenges is answered to
the satisfaction of the verifier.  Missing: as in `C51_interactive_partial`. -/
theorem C51_outside_partial (env : Env E) (σ0 σ1 σ : Store) (com g h : Pt E) (a b : Int) (x r : Sec) (next : Nat) (t : Stmt E)
    (hab : a < b) (hs : rangeStmt σ0 com g h a b x r next = .ok (σ1, t))
    (hind : ∀ m n : Int, m • g.val + n • h.val = 0 → (g.grp.order : Int) ∣ m)
    (hq : 4 * (b - a) ≤ g.grp.order) (hall : ∀ y : E, (g.grp.order : Int) • y = 0) (hbig : BigFactors g.grp.order)
    (X R : Int) (hcom : com.val = X • g.val + R • h.val)
    (hout : ∀ y : Int, a ≤ y → y < b → ¬ (g.grp.order : Int) ∣ X - y)
    (v : Val E) (hash : List UInt8) (cm : Val E) (answer : Int → Val E)
    (hn : ∀ i, i = 1 ∨ i = 2 → ∃ vi l es, v.index i = .ok vi ∧ vi.lookup "Cs" = .ok l ∧ l.elems = .ok es ∧
      es.length = rangeBits a b)
    (hr : ∀ S k, Digested σ t v S k → ∀ c : Fin (2 ^ 128), InRange k (answer c.val)) :
    convinced env σ t v hash cm answer ≤ 1 := by
  by_contra hmany
  obtain ⟨_, _, _, X', R', y, _, _, _, e, y1, y2, y3, _⟩ := C51_interactive_partial env σ0 σ1 σ com g h a b x r next t hab hs hind hq hall
    hbig v hash cm answer hn hr (by omega)
  exact hout y y1 y2 (range_unique hind hcom e y3)

/-! Examples: `1` is in `[0, 3)`; `7` is not. -/

/-- Points of `(ℤ/pℤ)²` for a prime `p` of 131 bits. -/
abbrev Big := ZMod bigPrime × ZMod bigPrime

def bigPt (x y : ZMod bigPrime) : Pt Big := ⟨⟨0, bigPrime, true⟩, (x, y)⟩

theorem big_ind (m n : Int) (h : m • (bigPt 1 0).val + n • (bigPt 0 1).val = 0) :
    ((bigPt 1 0).grp.order : Int) ∣ m := by
  have := congrArg Prod.fst h
  rw [Prod.fst_add, Prod.smul_fst, Prod.smul_fst] at this
  simp only [bigPt, smul_zero, add_zero, zsmul_eq_mul, mul_one, Prod.fst_zero] at this
  exact (ZMod.intCast_zmod_eq_zero_iff_dvd m bigPrime).mp this

theorem big_all (y : Big) : ((bigPt 1 0).grp.order : Int) • y = 0 := by
  have : ∀ z : ZMod bigPrime, (bigPrime : Int) • z = 0 := fun z => by simp
  exact Prod.ext (this y.1) (this y.2)

/-- Commitments to the bits of 1 and of 2, all with randomizer 0. -/
def bigPre : Val Big := .list [.none, .dict [("Cs", .list [.pt (bigPt 1 0), .pt (bigPt 0 0)]), ("rand", .int 0)],
  .dict [("Cs", .list [.pt (bigPt 0 0), .pt (bigPt 1 0)]), ("rand", .int 0)]]

def bigCom : Val Big := .list [.pt (bigPt 0 0), .list [.list [.pt (bigPt 0 0), .pt (bigPt 0 0)], .list [.pt (bigPt 0 0), .pt (bigPt 0 0)]],
  .list [.list [.pt (bigPt 0 0), .pt (bigPt 0 0)], .list [.pt (bigPt 0 0), .pt (bigPt 0 0)]]]

def bigBit (b : Bool) (c : Int) : Val Big :=
  .tuple [.list ((if b then [0, c] else [c, 0]).map .int), .list [.list [.int 0], .list [.int 0]]]

/-- What somebody who knows `x = 1`, `r = 0` says if all their random numbers are 0. -/
def bigAns (c : Int) : Val Big :=
  .list [.list [.int c, .int 0], .list [bigBit true c, bigBit false c], .list [bigBit false c, bigBit true c]]

theorem bigBit_range (b : Bool) (c : Int) (h0 : 0 ≤ c) (h1 : c < 2 ^ 128) (s t : DLRep Big) :
    Ranged (.or false [.leaf s, .leaf t]) (bigBit b c) := by
  refine ⟨if b then [0, c] else [c, 0], _, rfl, by cases b <;> rfl, fun c0 hc0 => ?_, _, _, rfl, trivial, _, _, rfl, trivial, rfl⟩
  cases b <;> simp at hc0 <;> rcases hc0 with rfl | rfl <;> omega

def bigPow (com : Pt Big) (x : Sec) (rs : List Sec) : PowerTwo Big := ⟨com, bigPt 1 0, bigPt 0 1, x, 1, false, rs⟩

def bigStmt : Stmt Big :=
  .and false [.leaf (.dlrep ⟨bigPt 1 0, [bigPt 1 0, bigPt 0 1], [0, 1], [], false⟩), (bigPow (bigPt 1 0) 2 [4, 5]).stmt,
    (bigPow (bigPt 2 0) 3 [6, 7]).stmt]

theorem big_stmt : rangeStmt exNoValues (bigPt 1 0) (bigPt 1 0) (bigPt 0 1) 0 3 0 1 2 =
    .ok (rangeStore exNoValues 0 3 0 2 3, bigStmt) := rfl

theorem big_convinced (env : Env Big) (hd : ∀ x, env.sha x = []) (c : Fin (2 ^ 128)) (hc : c.val = 0 ∨ c.val = 1) :
    Convinced env exNoValues bigStmt bigPre [] bigCom bigAns c := by
  obtain ⟨t1, h1, ⟨id, h2⟩, h3, h4, h5⟩ : ∃ t1, Tree.process exNoValues (Tree.freshVerifier bigStmt) bigPre = .ok t1 ∧
      (∃ id, Tree.proofId exNoValues t1 = .ok id) ∧ Tree.gate t1 = .ok () ∧
      verifyResponse exNoValues t1 bigCom 0 (bigAns 0) = .ok true ∧ verifyResponse exNoValues t1 bigCom 1 (bigAns 1) = .ok true :=
    ⟨_, rfl, ⟨_, rfl⟩, rfl, by decide +kernel, by decide +kernel⟩
  refine interview_iff.mpr ⟨t1, h1, ⟨id, by simp [checkStatement, Env.digest, hd, h2, bind_ok]⟩, h3, ?_⟩
  rcases hc with hc | hc <;> rw [hc]
  · exact h4
  · exact h5

theorem big_range {t : Stmt Big} {com0 com1 com2 : Pt Big} {v1 v2 : Val Big} {k1 k2 : Core Big} {S : Skel Big} {k : Core Big}
    (h1 : (bigPow com1 2 [4, 5]).construct exNoValues v1 = .ok k1) (h2 : (bigPow com2 3 [6, 7]).construct exNoValues v2 = .ok k2)
    (ht : t = .and false [.leaf (.dlrep ⟨com0, [bigPt 1 0, bigPt 0 1], [0, 1], [], false⟩), (bigPow com1 2 [4, 5]).stmt,
      (bigPow com2 3 [6, 7]).stmt])
    (r1 : ∀ c : Fin (2 ^ 128), Ranged k1 (.list [bigBit true c, bigBit false c]))
    (r2 : ∀ c : Fin (2 ^ 128), Ranged k2 (.list [bigBit false c, bigBit true c]))
    (hd : Digested exNoValues t (.list [.none, v1, v2]) S k) (c : Fin (2 ^ 128)) : InRange k (bigAns c.val) := by
  have hdt : DigestedTop exNoValues t (.list [.none, v1, v2]) S k := .inr ⟨by simp, hd⟩
  subst ht
  obtain ⟨vi, Ss, ks, hS, hkl, hvi, rfl, _, hdi⟩ := digestedTop_and (e := ⟨_, false, .none, none, none⟩) hdt
    (List.mem_cons_of_mem _ (List.mem_cons_self ..))
  match ks, hkl, Ss, hS with
  | [k0, k1', k2'], _, [S0, S1, S2], _ =>
    have d0 := (digested_rep (hdi 0 _ _ _ rfl rfl rfl)).1
    have d1 := (digested_ext (hdi 1 _ _ _ rfl rfl rfl)).1
    have d2 := (digested_ext (hdi 2 _ _ _ rfl rfl rfl)).1
    have e1 : vi 1 = v1 := Except.ok.inj ((hvi 1 (by simp)).symm.trans rfl)
    have e2 : vi 2 = v2 := Except.ok.inj ((hvi 2 (by simp)).symm.trans rfl)
    rw [e1] at d1
    rw [e2] at d2
    obtain rfl : k1 = k1' := Except.ok.inj (h1.symm.trans d1)
    obtain rfl : k2 = k2' := Except.ok.inj (h2.symm.trans d2)
    subst d0
    exact ranged_inRange _ _ ⟨_, rfl, _, _, rfl, trivial, _, _, rfl, r1 c, _, _, rfl, r2 c, rfl⟩

theorem bigPair_range (b b' : Bool) (c : Fin (2 ^ 128)) (s t s' t' : DLRep Big) :
    Ranged (.and false [.or false [.leaf s, .leaf t], .or false [.leaf s', .leaf t']]) (.list [bigBit b c, bigBit b' c]) :=
  ⟨_, rfl, _, _, rfl, bigBit_range b c (by positivity) (by exact_mod_cast c.2) _ _, _, _, rfl,
    bigBit_range b' c (by positivity) (by exact_mod_cast c.2) _ _, rfl⟩

example (env : Env Big) (hd : ∀ x, env.sha x = []) :=
  C51_interactive_partial env exNoValues _ exNoValues (bigPt 1 0) (bigPt 1 0) (bigPt 0 1) 0 3 0 1 2 bigStmt (by decide) big_stmt
    big_ind (by decide +kernel) big_all (bigFactors_of_prime bigPrime_prime bigPrime_large) bigPre [] bigCom bigAns
    (by
      rintro i (rfl | rfl)
      · exact ⟨_, _, _, rfl, rfl, rfl, by decide⟩
      · exact ⟨_, _, _, rfl, rfl, rfl, by decide⟩)
    (fun S k hD c => big_range rfl rfl rfl (fun c => bigPair_range true false c _ _ _ _) (fun c => bigPair_range false true c _ _ _ _) hD c)
    (by
      refine Finite.one_lt_card_iff_nontrivial.mpr ⟨⟨0, big_convinced env hd 0 (.inl rfl)⟩, ⟨1, big_convinced env hd 1 (.inr rfl)⟩, ?_⟩
      intro h
      have : (0 : Nat) = 1 := congrArg (fun z => z.1.val) h
      omega)

/-- Those who say that 7 is in `[0, 3)` with these commitments to its "bits", hoping for the challenge 0. -/
def bigLie : Val Big := .list [.none, .dict [("Cs", .list [.pt (bigPt 7 0), .pt (bigPt 0 0)]), ("rand", .int 0)],
  .dict [("Cs", .list [.pt (bigPt 8 0), .pt (bigPt 0 0)]), ("rand", .int 0)]]

def bigLieStmt : Stmt Big :=
  .and false [.leaf (.dlrep ⟨bigPt 7 0, [bigPt 1 0, bigPt 0 1], [0, 1], [], false⟩), (bigPow (bigPt 7 0) 2 [4, 5]).stmt,
    (bigPow (bigPt 8 0) 3 [6, 7]).stmt]

example (env : Env Big) : convinced env exNoValues bigLieStmt bigLie [] bigCom bigAns ≤ 1 :=
  C51_outside_partial env exNoValues (rangeStore exNoValues 0 3 0 2 3) exNoValues (bigPt 7 0) (bigPt 1 0) (bigPt 0 1) 0 3 0 1 2 bigLieStmt (by decide) rfl
    big_ind (by decide +kernel) big_all (bigFactors_of_prime bigPrime_prime bigPrime_large) 7 0 (by decide +kernel)
    (by
      intro y h0 h3 hd
      have : (bigPrime : Int) ≤ 7 - y := Int.le_of_dvd (by omega) hd
      have h7 : (7 : Int) < bigPrime := by decide +kernel
      omega) bigLie [] bigCom bigAns
    (by
      rintro i (rfl | rfl)
      · exact ⟨_, _, _, rfl, rfl, rfl, by decide⟩
      · exact ⟨_, _, _, rfl, rfl, rfl, by decide⟩)
    (fun S k hD c => big_range rfl rfl rfl (fun c => bigPair_range true false c _ _ _ _) (fun c => bigPair_range false true c _ _ _ _) hD c)

/-- They do get lucky with that challenge. -/
example (env : Env Big) (hd : ∀ x, env.sha x = []) : Convinced env exNoValues bigLieStmt bigLie [] bigCom bigAns 0 := by
  obtain ⟨t1, h1, ⟨id, h2⟩, h3, h4⟩ : ∃ t1, Tree.process exNoValues (Tree.freshVerifier bigLieStmt) bigLie = .ok t1 ∧
      (∃ id, Tree.proofId exNoValues t1 = .ok id) ∧ Tree.gate t1 = .ok () ∧
      verifyResponse exNoValues t1 bigCom 0 (bigAns 0) = .ok true := ⟨_, rfl, ⟨_, rfl⟩, rfl, by decide +kernel⟩
  exact interview_iff.mpr ⟨t1, h1, ⟨id, by simp [checkStatement, Env.digest, hd, h2, bind_ok]⟩, h3, h4⟩

end Zksk.Props
