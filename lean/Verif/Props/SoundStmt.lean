import Verif.Lemmas.Truth
import Verif.Props.NotEqual
import Verif.Props.BBSProof

/-! # C58, C19: soundness of compositions with extended parts -/

set_option linter.unusedSectionVars false

namespace Zksk.Props

open Spec

variable {E : Type} [AddCommGroup E] [DecidableEq E]

private theorem killedL_of_all {Q : Int} : ∀ ks : List (Core E), (∀ k ∈ ks, Killed Q k) → KilledL Q ks := by
  intro ks
  induction ks with
  | nil => exact fun _ => trivial
  | cons k ks ih => exact fun h => ⟨h k (by simp), ih fun k' hk' => h k' (by simp [hk'])⟩

theorem killed_of_all {Q : Int} (hall : ∀ x : E, Q • x = 0) : ∀ k : Core E, Killed Q k := by
  intro k
  induction k using Tree.ind with
  | leaf s => exact ⟨hall _, fun b _ => hall _⟩
  | and b subs ih => exact killedL_of_all subs ih
  | or b subs ih => exact killedL_of_all subs ih

/-- **C58** Special soundness of conjunctions with extended parts.  Let `good` extended statements be such that
whatever statement they construct from a precommitment that they find valid is free of disjunctions and, if it
holds, has the meaning `sem`.  If, after some precommitment, the verifier accepts answers to two challenges with
the same commitment whose difference has the inverse `u` modulo the exponent `Q` of the groups, then one single
assignment `X` of values to secrets makes all conjuncts true, representations and extended statements alike; for
secrets of representations the value is `u (y - y')` for the two responses. -/
theorem C58_conjunctions (sem : ExtSpec E → (Key → Int) → Prop) (good : ExtSpec E → Prop) (σ : Store)
    (hgood : ∀ sp, good sp → ∀ v k, sp.construct σ v = .ok k → sp.validate v = .ok () →
      WellFormed k ∧ OrFree k ∧ ∀ X, Holds σ k X → sem sp X)
    (t t1 : Stmt E) (v com r r' : Val E) (c c' u Q : Int) (ht : EveryLeaf (LeafOK good) t) (hn : NoOr t)
    (hall : ∀ x : E, Q • x = 0) (hu : u * (c - c') % Q = 1 % Q)
    (hd : digestPrecommitment σ (Tree.freshVerifier t) v = .ok t1)
    (h : verifyResponse σ t1 com c r = .ok true) (h' : verifyResponse σ t1 com c' r' = .ok true) :
    ∃ X : Key → Int, Truth sem σ t X ∧
      ∀ (x : Sec) (y y' : Int), Answered t r x (.int y) → Answered t r' x (.int y') → X (σ.key x) = u * (y - y') := by
  obtain ⟨S, k, hdig, hk⟩ := verifyResponse_stmt hd h
  rw [hk] at h h'
  have hD := digestedTop_digested hdig
  obtain ⟨X, hX, hocc⟩ := C18_and_extraction σ k com r r' c c' u Q
    (digested_orFree (fun sp hs v k hc hv => (hgood sp hs v k hc hv).2.1) hD ht hn)
    (digested_wellFormed (fun sp hs v k hc hv => (hgood sp hs v k hc hv).1) hD ht) (killed_of_all hall k) hu h h'
  exact ⟨X, digested_truth (fun sp hs v k X hc hv => (hgood sp hs v k hc hv).2.2 X) hD ht hX,
    fun x y y' a a' => hocc x y y' (digested_occ hD a) (digested_occ hD a')⟩

/-- **C19** (partial: as before sub-challenges must be in the range of honest provers, which the verifier does
not check) Special soundness of arbitrary compositions with extended parts, whatever these construct. -/
theorem C19_extended_partial (sem : ExtSpec E → (Key → Int) → Prop) (good : ExtSpec E → Prop) (σ : Store)
    (hgood : ∀ sp, good sp → ∀ v k, sp.construct σ v = .ok k → sp.validate v = .ok () →
      WellFormed k ∧ ∀ X, Holds σ k X → sem sp X)
    (t t1 : Stmt E) (v com r r' : Val E) (c c' Q : Int) (ht : EveryLeaf (LeafOK good) t)
    (hall : ∀ x : E, Q • x = 0) (hQ : BigFactors Q)
    (hc : 0 ≤ c ∧ c < 2 ^ 128) (hc' : 0 ≤ c' ∧ c' < 2 ^ 128) (hne : c ≠ c')
    (hr : ∀ S k, DigestedTop σ t v S k → InRange k r ∧ InRange k r')
    (hd : digestPrecommitment σ (Tree.freshVerifier t) v = .ok t1)
    (h : verifyResponse σ t1 com c r = .ok true) (h' : verifyResponse σ t1 com c' r' = .ok true) :
    ∃ X : Key → Int, Truth sem σ t X ∧ ∃ u : Int, u * (c - c') % Q = 1 % Q ∧
      ∀ (x : Sec) (y y' : Int), Answered t r x (.int y) → Answered t r' x (.int y') → X (σ.key x) = u * (y - y') := by
  obtain ⟨S, k, hdig, hk⟩ := verifyResponse_stmt hd h
  rw [hk] at h h'
  have hD := digestedTop_digested hdig
  obtain ⟨X, hX, u, hu, hocc⟩ := C19_extraction_partial σ k com r r' c c' Q
    (digested_wellFormed (fun sp hs v k hc hv => (hgood sp hs v k hc hv).1) hD ht) (killed_of_all hall k) hQ hc hc' hne
    (hr S k hdig).1 (hr S k hdig).2 h h'
  exact ⟨X, digested_truth (fun sp hs v k X hc hv => (hgood sp hs v k hc hv).2 X) hD ht hX, u, hu,
    fun x y y' a a' => hocc x y y' (digested_occ hD a) (digested_occ hD a')⟩

/-- An extended statement that constructs `exBig p x` from every precommitment but `None`. -/
def exBigSpec (p : Nat) (x : Sec) : ExtSpec (ZMod p) where
  cls := "Example"
  construct _ _ := .ok (.leaf (exBig p x))
  validate _ := .ok ()
  precommit := pure (.int 0)
  simPrecommit := pure (.int 0)

/-- The hypotheses are met by `1 = x0·1 or 1 = x2·1` in a group of large prime order `p`, where the second clause
is extended, with challenges 0 and 1. -/
example (p : Nat) (hle : 2 ^ 129 ≤ p) (hp : p.Prime) :
    let t : Stmt (ZMod p) := .or false [.leaf (.dlrep (exBig p 0)), .leaf (.ext ⟨exBigSpec p 2, false, .none, none, none⟩)]
    let v : Val (ZMod p) := .list [.none, .int 0]
    (∀ sp, sp = exBigSpec p 2 → ∀ v k, sp.construct Ex.σ v = .ok k → sp.validate v = .ok () →
      WellFormed k ∧ ∀ X, Holds Ex.σ k X → (1 : ZMod p) = X (Ex.σ.key 2)) ∧
    EveryLeaf (LeafOK fun sp => sp = exBigSpec p 2) t ∧ (∀ x : ZMod p, (p : Int) • x = 0) ∧ BigFactors (p : Int) ∧
    (∀ S k, DigestedTop Ex.σ t v S k → InRange k (exBigAns p 0) ∧ InRange k (exBigAns p 1)) ∧
    ∃ t1, digestPrecommitment Ex.σ (Tree.freshVerifier t) v = .ok t1 ∧
      verifyResponse Ex.σ t1 (exBigCom p) 0 (exBigAns p 0) = .ok true ∧
      verifyResponse Ex.σ t1 (exBigCom p) 1 (exBigAns p 1) = .ok true := by
  obtain ⟨h1, h2, h3, h4, h5, h6, h7⟩ := exBig_run p hle hp _ rfl
  intro t v
  refine ⟨fun sp hsp v k hk _ => ?_, ?_, fun x => by simp, h3, fun S k hd => ?_, _, rfl, h6, h7⟩
  · subst hsp
    cases hk
    refine ⟨rfl, fun X hX => ?_⟩
    cases hX with
    | rep _ _ _ h =>
      simpa [exBig] using h
  · refine .any _ _ (by simp) fun t ht => ?_
    simp only [List.mem_cons, List.not_mem_nil, or_false] at ht
    rcases ht with rfl | rfl
    · exact .leaf _ rfl
    · exact .leaf _ rfl
  · have hk : k = .or false [.leaf (exBig p 0), .leaf (exBig p 2)] := by
      have hd := digestedTop_digested hd
      simp only [t] at hd
      generalize ht : (Tree.or false _ : Stmt (ZMod p)) = t' at hd
      generalize hv : v = v' at hd
      cases hd with
      | bare k => simp [v] at hv
      | rep => simp at ht
      | ext => simp at ht
      | all => simp at ht
      | any b subs v' vi Ss ks hv' hS hk hvi h =>
        simp only [Tree.or.injEq] at ht
        obtain ⟨rfl, rfl⟩ := ht
        match Ss, ks, hS, hk, h with
        | [S1, S2], [k1, k2], _, _, h =>
          obtain ⟨rfl, _⟩ := digested_rep (h 0 _ _ _ rfl rfl rfl)
          obtain ⟨a2, _⟩ := digested_ext (h 1 _ _ _ rfl rfl rfl)
          cases a2
          rfl
    subst hk
    exact ⟨h4, h5⟩

/-- An inequality statement in a group of prime order with a generator that is not neutral. -/
structure NeProper (s : NotEqual E) : Prop where
  prime : s.g.grp.order.Prime
  grp : s.h.grp = s.g.grp
  tor : ∀ p ∈ [s.g, s.lhs0, s.h, s.lhs1], (s.g.grp.order : Int) • p.val = 0
  gen : s.g.val ≠ 0

/-- A statement about a BBS+ signature with a sound public key whose generators 1 and 2 are independent. -/
structure BBSProper (s : BBS E) : Prop where
  key : GoodKey s.P s.pk
  tor : (s.P.order : Int) • s.pk.h0.val = 0
  ind : ∀ g1 g2, s.pk.generators[1]? = some g1 → s.pk.generators[2]? = some g2 →
      ∀ a b : Int, a • g1.val + b • g2.val = 0 → (s.P.order : Int) ∣ a

/-- What inequalities and statements about signatures claim. -/
def primClaim (σ : Store) (sp : ExtSpec E) (X : Key → Int) : Prop :=
  (∀ s : NotEqual E, NeProper s → sp = s.spec →
    (∃ x : Int, s.lhs0.val = x • s.g.val ∧ s.lhs1.val ≠ x • s.h.val) ∧
    (s.bind = true → s.lhs0.val = X (σ.key s.x) • s.g.val ∧ s.lhs1.val ≠ X (σ.key s.x) • s.h.val)) ∧
  (∀ (s : BBS E) (gen : E), BBSProper s → sp = s.spec gen →
    ∃ ve vs vm A, s.vars = ve :: vs :: vm ∧
      (⟨A, X (σ.key ve), X (σ.key vs)⟩ : Signature E).verify s.P s.pk (vm.map fun x => X (σ.key x)) = .ok true)

theorem primitives_good (σ : Store) (sp : ExtSpec E) (hsp : (∃ s : NotEqual E, sp = s.spec ∧ NeProper s) ∨
      ∃ (s : BBS E) (gen : E), sp = s.spec gen ∧ BBSProper s) (v : Val E) (k : Core E)
    (hc : sp.construct σ v = .ok k) (hv : sp.validate v = .ok ()) :
    WellFormed k ∧ OrFree k ∧ ∀ X, Holds σ k X → primClaim σ sp X := by
  refine ⟨?_, ?_, fun X hX => ⟨fun s hs he => ?_, fun s gen hs he => ?_⟩⟩
  · rcases hsp with ⟨s, rfl, hs⟩ | ⟨s, gen, rfl, hs⟩
    · obtain ⟨p, kv, kv', hvp, g0, g1, rest, rfl, hbt, hbf⟩ := NotEqual.construct_inv (s := s) hc
      cases hb : s.bind with
      | false => rw [hbf hb]; simp [WellFormed, WellFormedL]
      | true =>
        obtain ⟨kv'', hr⟩ := hbt hb
        rw [hr]; simp [WellFormed, WellFormedL]
    · obtain ⟨a1, a2, g0, g1, g2, gs, ve, vs, vm, l1, l2, hg, hv, hvm, hl, ga1, ga2, rfl⟩ :=
        BBS.construct_inv (s := s) rfl hs.key hc
      simp [BBS.parts, WellFormed, WellFormedL]
      omega
  · rcases hsp with ⟨s, rfl, hs⟩ | ⟨s, gen, rfl, hs⟩
    · obtain ⟨p, kv, kv', hvp, g0, g1, rest, rfl, hbt, hbf⟩ := NotEqual.construct_inv (s := s) hc
      cases hb : s.bind with
      | false =>
        rw [hbf hb]
        refine .all _ _ fun t ht => ?_
        simp only [List.mem_cons, List.not_mem_nil, or_false] at ht
        rcases ht with rfl | rfl <;> exact .rep _
      | true =>
        obtain ⟨kv'', hr⟩ := hbt hb
        rw [hr]
        refine .all _ _ fun t ht => ?_
        simp only [List.mem_cons, List.not_mem_nil, or_false] at ht
        rcases ht with rfl | rfl | rfl <;> exact .rep _
    · obtain ⟨a1, a2, g0, g1, g2, gs, ve, vs, vm, l1, l2, hg, hv, hvm, hl, ga1, ga2, rfl⟩ :=
        BBS.construct_inv (s := s) rfl hs.key hc
      refine .all _ _ fun t ht => ?_
      simp only [BBS.parts, List.mem_cons, List.not_mem_nil, or_false] at ht
      rcases ht with rfl | rfl | rfl <;> exact .rep _
  · subst he
    exact C35_witness s σ v k X hs.prime hs.grp hs.tor hs.gen hc hv hX
  · subst he
    exact C45_independent s.P s rfl hs.key hs.tor hs.ind σ v k X hc hX

/-- **C58** For the primitives of the library: in a conjunction, nested in any way, of representations, inequality
statements and statements about BBS+ signatures, whose secrets may be shared, two accepted answers give values `X`
for which all representations hold, for all inequality statements `lhs0 = x g` and `lhs1 ≠ x h` (for `x` the value of
the secret in `X` if `bind` is set), and for all signature statements there is a valid signature on the values of
the message secrets in `X`. -/
theorem C58_primitives (σ : Store) (t t1 : Stmt E) (v com r r' : Val E) (c c' u Q : Int)
    (ht : EveryLeaf (LeafOK fun sp => (∃ s : NotEqual E, sp = s.spec ∧ NeProper s) ∨
      ∃ (s : BBS E) (gen : E), sp = s.spec gen ∧ BBSProper s) t)
    (hn : NoOr t) (hall : ∀ x : E, Q • x = 0) (hu : u * (c - c') % Q = 1 % Q)
    (hd : digestPrecommitment σ (Tree.freshVerifier t) v = .ok t1)
    (h : verifyResponse σ t1 com c r = .ok true) (h' : verifyResponse σ t1 com c' r' = .ok true) :
    ∃ X : Key → Int,
      (∀ s : DLRep E, HasLeaf (.dlrep s) t →
        s.lhs.val = (List.zipWith (fun x b => X (σ.key x) • b.val) s.secretVars s.bases).sum) ∧
      (∀ s : NotEqual E, NeProper s → Uses s.spec t →
        (∃ x : Int, s.lhs0.val = x • s.g.val ∧ s.lhs1.val ≠ x • s.h.val) ∧
        (s.bind = true → s.lhs0.val = X (σ.key s.x) • s.g.val ∧ s.lhs1.val ≠ X (σ.key s.x) • s.h.val)) ∧
      (∀ (s : BBS E) (gen : E), BBSProper s → Uses (s.spec gen) t →
        ∃ ve vs vm A, s.vars = ve :: vs :: vm ∧
          (⟨A, X (σ.key ve), X (σ.key vs)⟩ : Signature E).verify s.P s.pk (vm.map fun x => X (σ.key x)) = .ok true) ∧
      ∀ (x : Sec) (y y' : Int), Answered t r x (.int y) → Answered t r' x (.int y') → X (σ.key x) = u * (y - y') := by
  obtain ⟨X, hX, hocc⟩ := C58_conjunctions (primClaim σ) _ σ (primitives_good σ)
    t t1 v com r r' c c' u Q ht hn hall hu hd h h'
  refine ⟨X, fun s hs => ?_, fun s hs hu => ?_, fun s gen hs hu => ?_, hocc⟩
  · cases truth_leaf hs hn hX with | rep _ _ _ h => exact h
  · obtain ⟨e, he, hl⟩ := hu
    cases truth_leaf hl hn hX with | ext _ _ h => exact h.1 s hs he
  · obtain ⟨e, he, hl⟩ := hu
    cases truth_leaf hl hn hX with | ext _ _ h => exact h.2 s gen hs he

/-- The statement `m0 = 4` as `(4,4,4) = m0·(1,1,1)`, the inequality `(5,5,5) ≠ m0·(2,2,2)`, and a BBS+ signature with
`e = 1`, `s = 2` on the messages `m0 = 4`, `m1 = 6`; `m0` is the secret 0. -/
def exMix : Stmt (ZMod 7 × ZMod 7 × ZMod 7) :=
  .and false [.leaf (.dlrep ⟨⟨⟨9, 7, true⟩, (4, 4, 4)⟩, [⟨⟨9, 7, true⟩, (1, 1, 1)⟩], [0], [], false⟩),
    .and false [(NotEqual.stmt ⟨⟨⟨9, 7, true⟩, (4, 4, 4)⟩, ⟨⟨9, 7, true⟩, (1, 1, 1)⟩, ⟨⟨9, 7, true⟩, (5, 5, 5)⟩,
        ⟨⟨9, 7, true⟩, (2, 2, 2)⟩, ⟨⟨9, 7, true⟩, (1, 1, 1)⟩, 0, 8, 9, true⟩),
      (⟨exPairing3, exPk3, none, [2, 3, 0, 1], 4, 5, 6, 7⟩ : BBS _).stmt (1, 1, 1) false]]

/-- With the blinder 1 for the inequality and `r1 = 1`, `r2 = 2` for the signature, the answers to the challenges 0
and 1 for the commitment with all randomizers 0. -/
example :
    let O : Val (ZMod 7 × ZMod 7 × ZMod 7) := .pt ⟨⟨9, 7, true⟩, 0⟩
    let com : Val (ZMod 7 × ZMod 7 × ZMod 7) := .list [O, .list [.list [O, O, O],
      .list [.pt ⟨exPairing3.G1, 0⟩, .pt ⟨exPairing3.G1, 0⟩, .pt ⟨exPairing3.GT, 0⟩]]]
    EveryLeaf (LeafOK fun sp => (∃ s : NotEqual _, sp = s.spec ∧ NeProper s) ∨
      ∃ (s : BBS _) (gen : _), sp = s.spec gen ∧ BBSProper s) exMix ∧ NoOr exMix ∧
    (∀ x : ZMod 7 × ZMod 7 × ZMod 7, (7 : Int) • x = 0) ∧
    ∃ t1, digestPrecommitment exNames (Tree.freshVerifier exMix) (.list [.none, .list [.pt ⟨⟨9, 7, true⟩, (3, 3, 3)⟩,
        .dict [("A1", .pt ⟨exPairing3.G1, (3, 2, 0)⟩), ("A2", .pt ⟨exPairing3.G1, (0, 0, 2)⟩)]]]) = .ok t1 ∧
      verifyResponse exNames t1 com 0 (.list [.list [.int 0], .list [
        .list [.list [.int 0, .int 0], .list [.int 0, .int 0], .list [.int 0]],
        .list [.list [.int 0, .int 0], .list [.int 0, .int 0, .int 0],
          .list [.int 0, .int 0, .int 0, .int 0, .int 0, .int 0]]]]) = .ok true ∧
      verifyResponse exNames t1 com 1 (.list [.list [.int 4], .list [
        .list [.list [.int 4, .int 6], .list [.int 4, .int 6], .list [.int 4]],
        .list [.list [.int 1, .int 2], .list [.int 1, .int 2, .int 1],
          .list [.int 1, .int 1, .int 1, .int 2, .int 4, .int 6]]]]) = .ok true := by
  intro O com
  refine ⟨?_, ?_, by decide +kernel, _, rfl, by decide +kernel, by decide +kernel⟩
  · refine .all _ _ (by simp) fun t ht => ?_
    simp only [List.mem_cons, List.not_mem_nil, or_false] at ht
    rcases ht with rfl | rfl
    · exact .leaf _ rfl
    refine .all _ _ (by simp) fun t ht => ?_
    simp only [List.mem_cons, List.not_mem_nil, or_false] at ht
    rcases ht with rfl | rfl
    · exact .leaf _ (.inl ⟨_, rfl, ⟨(by decide : Nat.Prime 7), rfl, by decide, by decide⟩⟩)
    · refine .leaf _ (.inr ⟨_, _, rfl, ⟨⟨by decide, by decide, rfl, rfl, by decide⟩, by decide, fun g1 g2 h1 h2 a b h => ?_⟩⟩)
      simp only [exPk3, List.getElem?_cons_zero, List.getElem?_cons_succ, Option.some.injEq] at h1 h2
      subst h1; subst h2
      have h3 := congrArg Prod.fst h
      simp only [Prod.fst_add, Prod.smul_fst, smul_zero, add_zero, Prod.fst_zero] at h3
      rw [zsmul_eq_mul] at h3
      have h4 : ((a * 3 : Int) : ZMod 7) = 0 := by push_cast; exact h3
      have h5 := (ZMod.intCast_zmod_eq_zero_iff_dvd _ 7).mp h4
      show (7 : Int) ∣ a
      omega
  · refine .all _ _ fun t ht => ?_
    simp only [List.mem_cons, List.not_mem_nil, or_false] at ht
    rcases ht with rfl | rfl
    · exact .leaf _
    refine .all _ _ fun t ht => ?_
    simp only [List.mem_cons, List.not_mem_nil, or_false] at ht
    rcases ht with rfl | rfl <;> exact .leaf _

end Zksk.Props
