import Verif.Lemmas.Interview
import Verif.Lemmas.Outside
import Verif.Props.SoundStmt
import Verif.Props.OracleFork
import Verif.Props.Forgery

/-! # Soundness of the interactive protocol, counted (C103) -/

set_option linter.unusedSectionVars false

namespace Zksk.Props

open Spec

variable {E : Type} [AddCommGroup E] [DecidableEq E]

private theorem inverse_of_ne {q : Nat} (hq : Nat.Prime q) {c c' : Int} (h : c % (q : Int) ≠ c' % (q : Int)) :
    ∃ u : Int, u * (c - c') % (q : Int) = 1 % (q : Int) := by
  have hcop : IsCoprime (c - c') (q : Int) := by
    rw [Int.isCoprime_iff_gcd_eq_one]
    refine Nat.Coprime.symm (hq.coprime_iff_not_dvd.mpr fun hd => h ?_)
    exact Int.emod_eq_emod_iff_emod_sub_eq_zero.mpr (Int.emod_eq_zero_of_dvd (Int.natCast_dvd.mpr hd))
  obtain ⟨u, v, huv⟩ := hcop
  refine ⟨u, ?_⟩
  rw [← huv, Int.add_mul_emod_self_right]

/-- **C103** Somebody wants to convince a verifier, in the interactive protocol, of a statement that is false -- for a
statement with disjunctions: whose part outside them is.  Whatever they send, and however they answer, at most
`⌈2^128 / q⌉` of the `2^128` challenges make the verifier accept, where `q` is the order of the groups. -/
theorem C103_false (env : Env E) (σ : Store) (t : Core E) (hw : WellFormed t) (q : Nat) (hq : Nat.Prime q)
    (hk : Killed (q : Int) t) (hfalse : ∀ X, ¬ OutsideTrue σ X t) (v : Val E) (h : List UInt8) (com : Val E)
    (answer : Int → Val E) :
    convinced env σ t v h com answer ≤ (2 ^ 128 + q - 1) / q := by
  refine card_residue hq.pos _ fun a b ha hb => ?_
  obtain ⟨t1, h1, _, _, ha⟩ := interview_iff.mp ha
  obtain ⟨t2, h2, _, _, hb⟩ := interview_iff.mp hb
  cases process_plain h1
  cases process_plain h2
  by_contra hne
  obtain ⟨u, hu⟩ := inverse_of_ne hq hne
  obtain ⟨⟨ρ, ra⟩, ea⟩ := verifyResponse_iff.mp ha
  obtain ⟨⟨ρ', rb⟩, eb⟩ := verifyResponse_iff.mp hb
  exact hfalse _ (extract_outside t hw hk u _ _ _ _ com ρ ρ' (Int.ModEq.dvd (Int.ModEq.symm hu)) ra rb ea eb)

private theorem convinced_all {L : Type} [StmtOps E L] [ChallengeOps L] {env : Env E} {σ : Store} {t : Tree L} {v : Val E}
    {h : List UInt8} {com : Val E} {answer : Int → Val E} (H : ∀ k, Convinced env σ t v h com answer k) :
    convinced env σ t v h com answer = 2 ^ 128 := by
  unfold convinced
  rw [Nat.card_congr (Equiv.subtypeUnivEquiv H), Nat.card_eq_fintype_card, Fintype.card_fin]

/-- **C103** If the part outside disjunctions is true, then whoever knows the values `X` of its secrets convinces the verifier for
all `2^128` challenges, knowing nothing about the clauses of the disjunctions, which may all be false: each clause answers the
challenge 0 with zeros, and the challenge is carried by a sub-challenge that belongs to no clause (see C19). -/
theorem C103_forgery (env : Env E) (σ : Store) (t : Core E) (hs : Solid t) (X : Key → Int) (hX : OutsideTrue σ X t) :
    ∃ h, convinced env σ t .none h (zeroCommitment t) (fun c => forgedResponses σ X c t) = 2 ^ 128 := by
  obtain ⟨id, _, hid, _⟩ := Tree.proofId_isOk (σ := σ) (skel_core t)
  refine ⟨env.digest id, convinced_all fun k => interview_iff.mpr ⟨t, ?_, ⟨id, ?_⟩, ?_,
    verifyResponse_iff.mpr ⟨⟨_, (forged_run σ X _ t hs hX).1⟩, (forged_run σ X _ t hs hX).2⟩⟩⟩
  · rw [fresh_core]
    cases t <;> rfl
  · simp [checkStatement, hid, bind_ok]
  · cases t <;> rfl

/-- `1 = x0·1 and (1 = x1·0 or 1 = x2·0)` in `ℤ/7ℤ`. -/
example := C103_forgery (Ex.lengthEnv [0]) Ex.σ exHollow (by simp [exHollow, Solid, SolidL, Ex.P, Ex.G]) _ exHollow_outside

/-- **C103** Whoever convinces the verifier of a conjunction of representations, nested in any way, for more than
`⌈2^128 / q⌉` of the challenges, knows values for which it is true: there are two such challenges, and `u (y - y')` are such
values for the responses `y` to the one and `y'` to the other. -/
theorem C103_knowledge (env : Env E) (σ : Store) (t : Core E) (ho : OrFree t) (hw : WellFormed t) (q : Nat) (hq : Nat.Prime q)
    (hk : Killed (q : Int) t) (v : Val E) (h : List UInt8) (com : Val E) (answer : Int → Val E)
    (hmany : (2 ^ 128 + q - 1) / q < convinced env σ t v h com answer) :
    ∃ (a b : Fin (2 ^ 128)) (u : Int) (X : Key → Int), Convinced env σ t v h com answer a ∧ Convinced env σ t v h com answer b ∧
      u * ((a.val : Int) - b.val) % (q : Int) = 1 % (q : Int) ∧ Holds σ t X ∧
      ∀ (x : Sec) (y y' : Int), Occ t (answer a.val) x (.int y) → Occ t (answer b.val) x (.int y') →
        X (σ.key x) = u * (y - y') := by
  by_contra hno
  refine absurd hmany (Nat.not_lt.mpr (card_residue hq.pos _ fun a b ha hb => ?_))
  by_contra hne
  obtain ⟨u, hu⟩ := inverse_of_ne hq hne
  obtain ⟨t1, h1, _, _, va⟩ := interview_iff.mp ha
  obtain ⟨t2, h2, _, _, vb⟩ := interview_iff.mp hb
  cases process_plain h1
  cases process_plain h2
  obtain ⟨X, hX, hocc⟩ := C18_and_extraction σ t com _ _ _ _ u q ho hw hk hu va vb
  exact hno ⟨a, b, u, X, ha, hb, hu, hX, hocc⟩

/-- **C103** The same for conjunctions with inequalities and statements about BBS+ signatures: whoever convinces the verifier
so often has values for which all parts are true, among them messages, and the exponents of a valid signature on them. -/
theorem C103_primitives (env : Env E) (σ : Store) (t : Stmt E)
    (ht : EveryLeaf (LeafOK fun sp => (∃ s : NotEqual E, sp = s.spec ∧ NeProper s) ∨
      ∃ (s : BBS E) (gen : E), sp = s.spec gen ∧ BBSProper s) t)
    (hn : NoOr t) (q : Nat) (hq : Nat.Prime q) (hall : ∀ x : E, (q : Int) • x = 0) (v : Val E) (h : List UInt8) (com : Val E)
    (answer : Int → Val E) (hmany : (2 ^ 128 + q - 1) / q < convinced env σ t v h com answer) :
    ∃ (a b : Fin (2 ^ 128)) (u : Int) (X : Key → Int), Convinced env σ t v h com answer a ∧ Convinced env σ t v h com answer b ∧
      u * ((a.val : Int) - b.val) % (q : Int) = 1 % (q : Int) ∧
      (∀ s : DLRep E, HasLeaf (.dlrep s) t →
        s.lhs.val = (List.zipWith (fun x b => X (σ.key x) • b.val) s.secretVars s.bases).sum) ∧
      (∀ s : NotEqual E, NeProper s → Uses s.spec t →
        (∃ x : Int, s.lhs0.val = x • s.g.val ∧ s.lhs1.val ≠ x • s.h.val) ∧
        (s.bind = true → s.lhs0.val = X (σ.key s.x) • s.g.val ∧ s.lhs1.val ≠ X (σ.key s.x) • s.h.val)) ∧
      (∀ (s : BBS E) (gen : E), BBSProper s → Uses (s.spec gen) t →
        ∃ ve vs vm A, s.vars = ve :: vs :: vm ∧
          (⟨A, X (σ.key ve), X (σ.key vs)⟩ : Signature E).verify s.P s.pk (vm.map fun x => X (σ.key x)) = .ok true) ∧
      ∀ (x : Sec) (y y' : Int), Answered t (answer a.val) x (.int y) → Answered t (answer b.val) x (.int y') →
        X (σ.key x) = u * (y - y') := by
  by_contra hno
  refine absurd hmany (Nat.not_lt.mpr (card_residue hq.pos _ fun a b ha hb => ?_))
  by_contra hne
  obtain ⟨u, hu⟩ := inverse_of_ne hq hne
  obtain ⟨t1, h1, _, _, va⟩ := interview_iff.mp ha
  obtain ⟨t2, h2, _, _, vb⟩ := interview_iff.mp hb
  rw [h1] at h2
  cases h2
  obtain ⟨S, k, hD, hk⟩ := verifyResponse_process h1 va
  rw [hk] at va vb
  have hgood := primitives_good (E := E) σ
  obtain ⟨X, hH, hocc⟩ := C18_and_extraction σ k com _ _ _ _ u q
    (digested_orFree (fun sp hs v k hc hv => (hgood sp hs v k hc hv).2.1) hD ht hn)
    (digested_wellFormed (fun sp hs v k hc hv => (hgood sp hs v k hc hv).1) hD ht) (killed_of_all hall k) hu va vb
  have hX := digested_truth (sem := primClaim σ) (fun sp hs v k X hc hv => (hgood sp hs v k hc hv).2.2 X) hD ht hH
  refine hno ⟨a, b, u, X, ha, hb, hu, fun s hs => ?_, fun s hs hu => ?_, fun s gen hs hu => ?_,
    fun x y y' a a' => hocc x y y' (digested_occ hD a) (digested_occ hD a')⟩
  · cases truth_leaf hs hn hX with | rep _ _ _ h => exact h
  · obtain ⟨e, he, hl⟩ := hu
    cases truth_leaf hl hn hX with | ext _ _ h => exact h.1 s hs he
  · obtain ⟨e, he, hl⟩ := hu
    cases truth_leaf hl hn hX with | ext _ _ h => exact h.2 s gen hs he

/-- **C103** For compositions with disjunctions and extended parts, nested in any way, where `sem` is what an extended part
claims, against those who give one sub-challenge per clause in the range of honest provers (which the verifier does not
check, see C19).  All prime factors of the orders are large.  Whoever convinces the verifier for two of the `2^128`
challenges knows values for which the statement is true. -/
theorem C103_extended (sem : ExtSpec E → (Key → Int) → Prop) (good : ExtSpec E → Prop) (env : Env E) (σ : Store)
    (hgood : ∀ sp, good sp → ∀ v k, sp.construct σ v = .ok k → sp.validate v = .ok () →
      WellFormed k ∧ ∀ X, Holds σ k X → sem sp X)
    (t : Stmt E) (ht : EveryLeaf (LeafOK good) t) (Q : Int) (hall : ∀ x : E, Q • x = 0) (hbig : BigFactors Q)
    (v : Val E) (h : List UInt8) (com : Val E) (answer : Int → Val E)
    (hr : ∀ S k, Digested σ t v S k → ∀ a : Fin (2 ^ 128), InRange k (answer a.val))
    (hmany : 1 < convinced env σ t v h com answer) :
    ∃ (a b : Fin (2 ^ 128)) (u : Int) (X : Key → Int), Convinced env σ t v h com answer a ∧ Convinced env σ t v h com answer b ∧
      u * ((a.val : Int) - b.val) % Q = 1 % Q ∧ Truth sem σ t X ∧
      ∀ (x : Sec) (y y' : Int), Answered t (answer a.val) x (.int y) → Answered t (answer b.val) x (.int y') →
        X (σ.key x) = u * (y - y') := by
  obtain ⟨⟨a, ha⟩, ⟨b, hb⟩, hne⟩ := (Finite.one_lt_card_iff_nontrivial.mp hmany).exists_pair_ne
  have hab : (a.val : Int) ≠ b.val := fun he => hne (Subtype.ext (Fin.ext (by exact_mod_cast he)))
  obtain ⟨t1, h1, _, _, va⟩ := interview_iff.mp ha
  obtain ⟨t2, h2, _, _, vb⟩ := interview_iff.mp hb
  rw [h1] at h2
  cases h2
  obtain ⟨S, k, hD, hk⟩ := verifyResponse_process h1 va
  rw [hk] at va vb
  obtain ⟨X, hX, u, hu, hocc⟩ := C19_extraction_partial σ k com _ _ _ _ Q
    (digested_wellFormed (fun sp hs v k hc hv => (hgood sp hs v k hc hv).1) hD ht) (killed_of_all hall k) hbig
    ⟨by positivity, by exact_mod_cast a.2⟩ ⟨by positivity, by exact_mod_cast b.2⟩ hab (hr S k hD _) (hr S k hD _) va vb
  exact ⟨a, b, u, X, ha, hb, hu, digested_truth (fun sp hs v k X hc hv => (hgood sp hs v k hc hv).2 X) hD ht hX,
    fun x y y' a a' => hocc x y y' (digested_occ hD a) (digested_occ hD a')⟩

/-! Examples. -/

/-- The false statement `1 = x0·0` in `ℤ/7ℤ`, and somebody who commits to `4` hoping for a challenge that is 3 modulo 7. -/
private def exFalseRep : Core (ZMod 7) := .leaf ⟨Ex.P 1, [Ex.P 0], [0], [], false⟩

example : convinced (Ex.lengthEnv [0]) Ex.σ0 exFalseRep .none [0] (.pt (Ex.P 4)) (fun _ => .list [.int 0]) ≤ (2 ^ 128 + 7 - 1) / 7 :=
  C103_false (Ex.lengthEnv [0]) Ex.σ0 exFalseRep rfl 7 (by decide) ⟨by decide, by decide⟩
    (fun X hX => by
      unfold exFalseRep at hX
      cases hX with
      | rep _ h => cases h with
        | rep _ _ _ h => simp [Ex.P] at h; exact absurd h (by decide)) _ _ _ _

example : Convinced (Ex.lengthEnv [0]) Ex.σ0 exFalseRep .none [0] (.pt (Ex.P 4)) (fun _ => .list [.int 0]) 10 :=
  interview_iff.mpr ⟨_, rfl, ⟨_, rfl⟩, rfl, by decide +kernel⟩

/-- `1 = x0·1 + x1·2` in `ℤ/7ℤ`, and somebody who knows `x0 = 2`, `x1 = 3`. -/
private theorem exRep_all (k : Fin (2 ^ 128)) : Convinced (Ex.lengthEnv [0]) Ex.σ0 (.leaf Ex.rep1 : Core (ZMod 7)) .none [0] (.pt (Ex.P 0))
    (fun c => .list [.int (2 * c), .int (3 * c)]) k := by
  refine interview_iff.mpr ⟨_, rfl, ⟨_, rfl⟩, rfl, ?_⟩
  generalize (k.val : Int) = c
  refine verifyResponse_iff.mpr ⟨⟨fun κ => if κ = Ex.σ0.key 0 then .int (2 * c) else .int (3 * c), .rep _ _ _ fun i x hx => ?_⟩, ?_⟩
  · match i, hx with
    | 0, hx => cases hx; simp [Val.index]
    | 1, hx =>
      cases hx
      rw [if_neg (by decide)]
      simp [Val.index]
  · have h := Eqns.rep Ex.rep1 c (.list [.int (2 * c), .int (3 * c)]) _ [2 * c, 3 * c] rfl (fun _ => rfl) rfl (by simp [Ex.rep1, Ex.P])
    have e : (List.zipWith (fun (w : Int) (b : Pt (ZMod 7)) => w • b.val) [2 * c, 3 * c] Ex.rep1.bases).sum - c • Ex.rep1.lhs.val = 0 := by
      simp only [Ex.rep1, Ex.P, List.zipWith_cons_cons, List.zipWith_nil_right, List.sum_cons, List.sum_nil, add_zero, zsmul_eq_mul]
      push_cast
      have h7 : (7 : ZMod 7) = 0 := by decide
      linear_combination (c : ZMod 7) * h7
    rw [e] at h
    exact h

example := C103_knowledge (Ex.lengthEnv [0]) Ex.σ0 (.leaf Ex.rep1) (.rep _) rfl 7 (by decide) ⟨by decide, by decide⟩ .none [0] (.pt (Ex.P 0))
  (fun c => .list [.int (2 * c), .int (3 * c)]) (by rw [convinced_all exRep_all]; norm_num)

/-- `3 = x·1` and `5 ≠ x·3` in `ℤ/7ℤ`, and somebody who knows `x = 3`. -/
private def exApart : Stmt (ZMod 7) := .and false [.leaf (.dlrep ⟨Ex.P 3, [Ex.P 1], [1], [], false⟩), exLibNe.stmt]

private def exApartAns (n : Int) : Val (ZMod 7) :=
  .list [.list [.int (3 * n)], .list [.list [.int (3 * n), .int (6 * n)], .list [.int (3 * n), .int (6 * n)], .list [.int (3 * n)]]]

private def exApartCom : Val (ZMod 7) := .list [.pt (Ex.P 0), .list [.pt (Ex.P 0), .pt (Ex.P 0), .pt (Ex.P 0)]]

private def exApartCore : Core (ZMod 7) :=
  .and false [.leaf ⟨Ex.P 3, [Ex.P 1], [1], [], false⟩,
    .and false [.leaf ⟨Ex.P 0, [Ex.P 1, Ex.P 3], [3, 4], [], false⟩, .leaf ⟨Ex.P 4, [Ex.P 3, Ex.P 5], [3, 4], [], false⟩,
      .leaf ⟨Ex.P 3, [Ex.P 1], [1], [], false⟩]]

private theorem exApart_digested {S : Skel (ZMod 7)} {k : Core (ZMod 7)}
    (hd : Digested exLibStore exApart (.list [.none, .pt (Ex.P 4)]) S k) : k = exApartCore := by
  generalize ht : exApart = t' at hd
  generalize hv : (.list [.none, .pt (Ex.P 4)] : Val (ZMod 7)) = v' at hd
  unfold exApart at ht
  cases hd with
  | bare k => simp at hv
  | rep => simp at ht
  | ext => simp at ht
  | any => simp at ht
  | all b subs v' vi Ss ks hv' hS hk hvi h =>
    subst hv
    simp only [Tree.and.injEq] at ht
    obtain ⟨rfl, rfl⟩ := ht
    have h1 : vi 1 = .pt (Ex.P 4) := Except.ok.inj ((hvi 1 (by simp)).symm.trans rfl)
    match Ss, ks, hS, hk, h with
    | [S1, S2], [k1, k2], _, _, h =>
      obtain ⟨rfl, _⟩ := digested_rep (h 0 _ _ _ rfl rfl rfl)
      obtain ⟨a2, _⟩ := digested_ext (h 1 _ _ _ rfl rfl rfl)
      rw [h1] at a2
      cases a2
      rfl

private theorem exRep_eqn (c : Int) (l : ZMod 7) (bs : List (Pt (ZMod 7))) (xs : List Sec) (ks : Dict Int) (ws : List Int)
    (hb : ∀ b ∈ bs, b.grp = Ex.G) (hl : ws.length = bs.length)
    (h : (List.zipWith (fun (w : Int) (b : Pt (ZMod 7)) => w • b.val) ws bs).sum = c • l) :
    Eqns (.leaf ⟨Ex.P l, bs, xs, ks, false⟩) c (.list (ws.map .int)) (.pt (Ex.P 0)) := by
  have := Eqns.rep ⟨Ex.P l, bs, xs, ks, false⟩ c (.list (ws.map .int)) _ ws rfl (fun _ => by simp [hl])
    (by simp [hl]) (fun b hb' => hb b (List.mem_of_mem_take hb'))
  simp only [Ex.P, h, sub_self] at this
  exact this

private theorem exApart_core (n : Int) : verifyResponse exLibStore exApartCore exApartCom n (exApartAns n) = .ok true := by
  have h7 : (7 : ZMod 7) = 0 := by decide
  refine verifyResponse_iff.mpr ⟨⟨fun κ => if κ = exLibStore.key 4 then .int (6 * n) else .int (3 * n), ?_⟩, ?_⟩
  · refine .all _ _ _ _ (fun i => if i = 0 then .list [.int (3 * n)]
      else .list [.list [.int (3 * n), .int (6 * n)], .list [.int (3 * n), .int (6 * n)], .list [.int (3 * n)]]) ?_ ?_
    · intro i hi
      match i, hi with
      | 0, _ => rfl
      | 1, _ => rfl
    · intro i t hi
      match i, hi with
      | 0, hi =>
        cases hi
        exact .rep _ _ _ fun j x hj => by
          match j, hj with
          | 0, hj => cases hj; rfl
      | 1, hi =>
        cases hi
        refine .all _ _ _ _ (fun i => if i < 2 then .list [.int (3 * n), .int (6 * n)] else .list [.int (3 * n)]) ?_ ?_
        · intro i hi
          match i, hi with
          | 0, _ => rfl
          | 1, _ => rfl
          | 2, _ => rfl
        · intro i t hi
          match i, hi with
          | 0, hi =>
            cases hi
            exact .rep _ _ _ fun j x hj => by
              match j, hj with
              | 0, hj => cases hj; rfl
              | 1, hj => cases hj; rfl
          | 1, hi =>
            cases hi
            exact .rep _ _ _ fun j x hj => by
              match j, hj with
              | 0, hj => cases hj; rfl
              | 1, hj => cases hj; rfl
          | 2, hi =>
            cases hi
            exact .rep _ _ _ fun j x hj => by
              match j, hj with
              | 0, hj => cases hj; rfl
  · have e3 : Eqns (.leaf ⟨Ex.P 3, [Ex.P 1], [1], [], false⟩) n (.list [.int (3 * n)]) (.pt (Ex.P 0)) :=
      exRep_eqn n 3 _ _ _ [3 * n] (by simp [Ex.P]) rfl (by simp [Ex.P]; ring)
    refine .all _ _ _ _ _ (fun i => if i = 0 then .list [.int (3 * n)]
      else .list [.list [.int (3 * n), .int (6 * n)], .list [.int (3 * n), .int (6 * n)], .list [.int (3 * n)]]) rfl ?_ ?_
    · intro i hi
      match i, hi with
      | 0, _ => rfl
      | 1, _ => rfl
    · intro i t com hi hc
      match i, hi, hc with
      | 0, hi, hc => cases hi; cases hc; exact e3
      | 1, hi, hc =>
        cases hi; cases hc
        refine .all _ _ _ _ _ (fun i => if i < 2 then .list [.int (3 * n), .int (6 * n)] else .list [.int (3 * n)]) rfl ?_ ?_
        · intro i hi
          match i, hi with
          | 0, _ => rfl
          | 1, _ => rfl
          | 2, _ => rfl
        · intro i t com hi hc
          match i, hi, hc with
          | 0, hi, hc =>
            cases hi; cases hc
            exact exRep_eqn n 0 _ _ _ [3 * n, 6 * n] (by simp [Ex.P]) rfl (by
              simp [Ex.P]; linear_combination 3 * (n : ZMod 7) * h7)
          | 1, hi, hc =>
            cases hi; cases hc
            exact exRep_eqn n 4 _ _ _ [3 * n, 6 * n] (by simp [Ex.P]) rfl (by
              simp [Ex.P]; linear_combination 5 * (n : ZMod 7) * h7)
          | 2, hi, hc =>
            cases hi; cases hc
            exact exRep_eqn n 3 _ _ _ [3 * n] (by simp [Ex.P]) rfl (by simp [Ex.P]; ring)

private theorem exApart_all (k : Fin (2 ^ 128)) : Convinced (Ex.lengthEnv [0]) exLibStore exApart (.list [.none, .pt (Ex.P 4)]) [0]
    exApartCom exApartAns k := by
  obtain ⟨t1, h1, h2, h3, h4⟩ : ∃ t1, Tree.process exLibStore (Tree.freshVerifier exApart) (.list [.none, .pt (Ex.P 4)]) = .ok t1 ∧
      (∃ x, checkStatement (Ex.lengthEnv [0]) exLibStore t1 [0] = .ok x) ∧ Tree.gate t1 = .ok () ∧
      verifyResponse exLibStore t1 exApartCom 0 (exApartAns 0) = .ok true := ⟨_, rfl, ⟨_, rfl⟩, rfl, by decide +kernel⟩
  refine interview_iff.mpr ⟨t1, h1, h2, h3, ?_⟩
  obtain ⟨S, c, hD, hk⟩ := verifyResponse_process h1 h4
  rw [hk, exApart_digested hD]
  exact exApart_core _

example := C103_primitives (Ex.lengthEnv [0]) exLibStore exApart
    (by
      refine .all _ _ (by simp) fun t ht => ?_
      simp only [List.mem_cons, List.not_mem_nil, or_false] at ht
      rcases ht with rfl | rfl
      · exact .leaf _ rfl
      · exact .leaf _ (.inl ⟨exLibNe, rfl, ⟨(by decide : Nat.Prime 7), rfl, by decide, by decide⟩⟩))
    (by
      refine .all _ _ fun t ht => ?_
      simp only [List.mem_cons, List.not_mem_nil, or_false] at ht
      rcases ht with rfl | rfl
      · exact .leaf _
      · exact .leaf _) 7 (by decide) (by decide +kernel) _ _ _ _ (by rw [convinced_all exApart_all]; norm_num)

/-- `1 = x0·1 or 1 = x2·1` in a group of large prime order `p`, where the second clause is extended, and somebody who knows
`x0 = 1`. -/
private def exChoice (p : Nat) : Stmt (ZMod p) :=
  .or false [.leaf (.dlrep (exBig p 0)), .leaf (.ext ⟨exBigSpec p 2, false, .none, none, none⟩)]

private def exChosen (p : Nat) : Stmt (ZMod p) :=
  .or false [.leaf (.dlrep (exBig p 0)),
    .leaf (.ext ⟨exBigSpec p 2, false, .int 0, some (.leaf (exBig p 2)), some (.leaf (exBig p 2))⟩)]

private theorem exChoice_id (p : Nat) : ∃ id, Tree.proofId Ex.σ (exChosen p) = .ok id := ⟨_, rfl⟩

private theorem exChoice_digested {p : Nat} {S : Skel (ZMod p)} {k : Core (ZMod p)}
    (hd : Digested Ex.σ (exChoice p) (.list [.none, .int 0]) S k) : k = exLargeOr p := by
  generalize ht : exChoice p = t' at hd
  generalize hv : (.list [.none, .int 0] : Val (ZMod p)) = v' at hd
  unfold exChoice at ht
  cases hd with
  | bare k => simp at hv
  | rep => simp at ht
  | ext => simp at ht
  | all => simp at ht
  | any b subs v' vi Ss ks hv' hS hk hvi h =>
    simp only [Tree.or.injEq] at ht
    obtain ⟨rfl, rfl⟩ := ht
    match Ss, ks, hS, hk, h with
    | [S1, S2], [k1, k2], _, _, h =>
      obtain ⟨rfl, _⟩ := digested_rep (h 0 _ _ _ rfl rfl rfl)
      obtain ⟨a2, _⟩ := digested_ext (h 1 _ _ _ rfl rfl rfl)
      cases a2
      rfl

example (p : Nat) (hle : 2 ^ 129 ≤ p) (hp : p.Prime) (env : Env (ZMod p)) (hd : ∀ x, env.sha x = []) :=
  C103_extended (fun _ X => (1 : ZMod p) = X (Ex.σ.key 2)) (fun sp => sp = exBigSpec p 2) env Ex.σ
    (fun sp hsp v k hk _ => by
      subst hsp
      cases hk
      refine ⟨rfl, fun X hX => ?_⟩
      cases hX with
      | rep _ _ _ h => simpa [exBig] using h) (exChoice p)
    (by
      refine .any _ _ (by simp) fun t ht => ?_
      simp only [List.mem_cons, List.not_mem_nil, or_false] at ht
      rcases ht with rfl | rfl
      · exact .leaf _ rfl
      · exact .leaf _ rfl) p (fun x => by simp) (bigFactors_of_prime hp hle) (.list [.none, .int 0]) [] (exBigCom p) (exBigAns p)
    (fun S k hd a => by
      rw [exChoice_digested hd]
      exact exLargeOr_range p _ (by positivity) (by exact_mod_cast a.2))
    (by
      have : ∀ k, Convinced env Ex.σ (exChoice p) (.list [.none, .int 0]) [] (exBigCom p) (exBigAns p) k := fun k => by
        refine interview_iff.mpr ⟨exChosen p, rfl, ?_, rfl, verifyResponse_iff.mpr (exLargeOr_run p k.val)⟩
        obtain ⟨id, hid⟩ := exChoice_id p
        exact ⟨id, by simp [checkStatement, Env.digest, hd, hid, bind_ok]⟩
      rw [convinced_all this]
      norm_num)

end Zksk.Props
