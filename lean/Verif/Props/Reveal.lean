import Verif.Lemmas.Signs
import Verif.Lemmas.Hide
import Verif.Props.RangeComplete

/-! # C25, C60: what proofs with disjunctions and range proofs reveal -/

set_option linter.unusedSectionVars false

namespace Zksk.Props

open Spec

variable {E : Type} [AddCommGroup E] [DecidableEq E]

/-! ### C25 at any depth -/

/-- **C25** (violated, at any depth and inside of primitives) Every proof by `prove()` of any statement has,
at each of its disjunctions that is reached through conjunctions, proved clauses and the statements
constructed by primitives, one clause not marked as simulated with a sub-challenge that is not positive, while
those of all other clauses are not negative. -/
theorem C25_every_disjunction (env : Env E) (t t' : Stmt E) (d : Dict Int) (msg : String) (nizk : NIZK E)
    (w w' : World) (hleaf : ∀ s, t ≠ .leaf (.dlrep s))
    (h : prove (LeafProver E) env t d msg w = .ok ((nizk, t'), w')) :
    Signed (Shown fun _ => True) t nizk.challenge nizk.responses :=
  prove_signed (J := fun _ => True) (fun _ _ => trivial) trivial hleaf
    (fun _ _ => ⟨fun _ _ _ _ _ => trivial, fun _ _ _ _ _ => trivial⟩) h

/-! ### C60 -/

/-- **C60** (violated) The value can be read off every proof made by `prove()` for a range statement
`PowerTwoRangeStmt`, as soon as the challenge is no multiple of `2^128`: its binary digits are the positions
of the sub-challenges that are not positive. -/
theorem C60_range_proof_reveals (env : Env E) (s : PowerTwo E) (d : Dict Int) (w w' : World) (msg : String)
    (x : Int) (nizk : NIZK E) (t' : Stmt E) (hp : s.isProver = true)
    (hx : (updateSecretValues w.store d).value s.x = some x) (hr : s.x ∉ s.rands)
    (h : prove (LeafProver E) env s.stmt d msg w = .ok ((nizk, t'), w'))
    (hc : nizk.challenge % 2 ^ challengeLength ≠ 0) :
    (readValue nizk.responses).map Int.ofNat = some x := by
  have := prove_signed (J := fun σ => σ.value s.x = some x) (fun σ hσ => update_same hx hσ) hx
    (by intro s'; unfold PowerTwo.stmt; simp) (by
      rintro sp ⟨e, rfl, he⟩
      unfold PowerTwo.stmt at he
      cases he
      exact PowerTwo.keeping hr) h
  unfold PowerTwo.stmt at this
  generalize nizk.responses = resp at this
  cases this with
  | leaf l c r hl =>
    exact PowerTwo.readValue_shown hc hp (fun _ h => h) hr hl

/-- **C60** (violated) The same for `RangeStmt(com, g, h, a, b, x, r)`: the responses for the first of the two
range statements inside of it reveal `x - a`. -/
theorem C60_range_stmt_reveals (env : Env E) (σ σ1 : Store) (com g h : Pt E) (a b xv rv : Int) (x r : Sec)
    (next : Nat) (t t' : Stmt E) (hx : σ.value x = some xv) (hrv : σ.value r = some rv) (hrn : r < next)
    (hs : rangeStmt σ com g h a b x r next = .ok (σ1, t)) (d : Dict Int) (rng : Nat → Nat) (msg : String)
    (hd : ∀ e ∈ d, e.1 < next) (nizk : NIZK E) (w' : World)
    (hpr : prove (LeafProver E) env t d msg ⟨σ1, rng⟩ = .ok ((nizk, t'), w'))
    (hc : nizk.challenge % 2 ^ challengeLength ≠ 0) :
    ∃ r₀ r₁ r₂ : Val E, nizk.responses = .list [r₀, r₁, r₂] ∧
      (readValue r₁).map (fun n : Nat => a + (n : Int)) = some xv := by
  obtain ⟨c, com1, com2, hcg, hhg, rfl, rfl, rfl, rfl, rfl⟩ := rangeStmt_ok hs
  obtain ⟨v1, v2, v3⟩ := rangeStore_values (a := a) (b := b) (next := next) hx
  generalize hσ1 : rangeStore σ a b x next (next + 1) = σ1 at *
  have hupd : (updateSecretValues σ1 d).value next = some (xv - a) := by
    rw [← v1]
    clear hpr hs
    revert hd
    generalize σ1 = τ
    induction d generalizing τ with
    | nil => intro _; rfl
    | cons e d ih =>
      intro hd
      have := ih (τ.setValue e.1 e.2) fun e he => hd e (by simp [he])
      have hne : next ≠ e.1 := fun hh => by
        have := hd e (by simp)
        rw [← hh] at this
        exact Nat.lt_irrefl _ this
      rw [PowerTwo.setValue_value, if_neg hne] at this
      exact this
  have hr1 : σ1.value r = some rv := (v3 r hrn).trans hrv
  have hnot : ∀ m n : Nat, next < m → next ∉ freshSecs m n := by
    intro m n hm hmem
    have := (mem_freshSecs.mp hmem).1
    omega
  have hsg := prove_signed (J := fun σ => σ.value next = some (xv - a)) (fun σ hσ => update_same hupd hσ) hupd
    (by simp) (by
      rintro sp ⟨e, rfl, he⟩
      cases he with
      | all _ _ u hu he =>
        simp only [List.mem_cons, List.not_mem_nil, or_false] at hu
        rcases hu with rfl | rfl | rfl
        · cases he
        · unfold PowerTwo.stmt at he
          cases he
          exact PowerTwo.keeping (hnot _ _ (by omega))
        · unfold PowerTwo.stmt at he
          cases he
          exact PowerTwo.keeping (hnot _ _ (by omega))) hpr
  generalize hresp : nizk.responses = resp at hsg
  cases hsg with
  | all _ _ _ rs hl hrec =>
    obtain ⟨r0, r1, r2, rfl⟩ : ∃ r0 r1 r2, rs = [r0, r1, r2] := by
      match rs, hl with
      | [a, b, c], _ => exact ⟨a, b, c, rfl⟩
    refine ⟨r0, r1, r2, rfl, ?_⟩
    have h1 := hrec 1 _ r1 rfl rfl
    unfold PowerTwo.stmt at h1
    cases h1 with
    | leaf _ _ _ hl1 =>
      have := PowerTwo.readValue_shown (s := mkPowerTwo σ1 ⟨g.grp, com.val - a • g.val⟩ g h next r
        (freshSecs (next + 2) (rangeBits a b))) (x := xv - a) hc (by
          show ((σ1.value next).isSome && (σ1.value r).isSome) = true
          rw [v1, hr1]; rfl) (fun _ h => h) (hnot _ _ (by omega)) hl1
      obtain ⟨n, hn, hn'⟩ := Option.map_eq_some_iff.mp this
      rw [hn, Option.map_some, Option.some.injEq]
      have : (n : Int) = xv - a := hn'
      omega

/-- The challenge of a proof is a hash. -/
private theorem nizk_challenge {env : Env E} {t t' : Stmt E} {d : Dict Int} {msg : String} {w w' : World}
    {nizk : NIZK E} (h : prove (LeafProver E) env t d msg w = .ok ((nizk, t'), w')) :
    ∃ id pc cm, env.fiatShamir id pc cm msg = .ok nizk.challenge := by
  unfold prove at h
  obtain ⟨⟨p?, t1⟩, w1, h1, h2⟩ := pm_bind.mp h
  cases p? with
  | none => exact (raise_ne.mp h2).elim
  | some p =>
    simp only at h2
    obtain ⟨⟨n, p'⟩, w2, h3, h2⟩ := pm_bind.mp h2
    rw [pm_pure_iff, Prod.mk.injEq, Prod.mk.injEq] at h2
    obtain ⟨⟨rfl, _⟩, _⟩ := h2
    unfold PTree.getNizkProof at h3
    obtain ⟨⟨v, p1⟩, w3, k1, h3⟩ := pm_bind.mp h3
    obtain ⟨⟨com, p2⟩, w4, k2, h3⟩ := pm_bind.mp h3
    simp only at h3 k2
    rw [pm_getStore_bind, pm_liftE_bind_iff] at h3
    obtain ⟨id, _, h3⟩ := h3
    rw [pm_liftE_bind_iff] at h3
    obtain ⟨c, hc, h3⟩ := h3
    obtain ⟨r, w5, k3, h3⟩ := pm_bind.mp h3
    rw [pm_pure_iff, Prod.mk.injEq, Prod.mk.injEq] at h3
    rw [← h3.1.1]
    exact ⟨_, _, _, hc⟩

/-- `exThree` (the value 3, two bits) with randomizer 4. -/
def exReveal : World := ⟨⟨exNeStore.name, fun y => if y = 2 then some 4 else none⟩, fun _ => 3⟩

/-- The hypotheses of `C60_range_proof_reveals` are met: the proof exists and its responses say 3. -/
example : ∃ nizk t' w', prove (LeafProver (ZMod 7)) (Ex.env 5) exThree.stmt [(1, 3)] "m" exReveal =
      .ok ((nizk, t'), w') ∧ nizk.challenge % 2 ^ challengeLength ≠ 0 ∧
    (updateSecretValues exReveal.store [(1, 3)]).value exThree.x = some 3 ∧
    (readValue nizk.responses).map Int.ofNat = some 3 := by
  obtain ⟨nizk, t', w', h, _⟩ := C36_complete (Ex.env 5) exThree [(1, 3)] exReveal "m" 3 4 rfl rfl rfl
    (by decide) (by decide) (by decide) rfl (by decide) (by decide) rfl rfl ⟨rfl, trivial⟩ (by decide) (by decide)
  have hc : nizk.challenge % 2 ^ challengeLength ≠ 0 := by
    obtain ⟨id, pc, cm, he⟩ := nizk_challenge h
    obtain ⟨_, _, he⟩ := bind_ok_iff.mp he
    rw [show nizk.challenge = 5 from (Except.ok.inj he).symm]
    decide
  exact ⟨nizk, t', w', h, hc, rfl,
    C60_range_proof_reveals _ exThree _ _ w' _ 3 nizk t' rfl rfl (by decide) h hc⟩

/-- A range proof for `2 ∈ [0, 4)` exists, and its responses say `0 + 2`. -/
example : ∃ t nizk t' w', rangeStmt exNeStore (Ex.P 1) (Ex.P 1) (Ex.P 3) 0 4 0 1 2 =
      .ok (rangeStore exNeStore 0 4 0 2 3, t) ∧
    prove (LeafProver (ZMod 7)) (Ex.env 5) t [(0, 2)] "m" ⟨rangeStore exNeStore 0 4 0 2 3, fun _ => 3⟩ =
      .ok ((nizk, t'), w') ∧
    ∃ r₀ r₁ r₂ : Val (ZMod 7), nizk.responses = .list [r₀, r₁, r₂] ∧
      (readValue r₁).map (fun n : Nat => 0 + (n : Int)) = some 2 := by
  obtain ⟨t, ht⟩ := rangeStmt_exists (σ := exNeStore) (com := Ex.P 1) (g := Ex.P 1) (h := Ex.P 3) (a := 0) (b := 4)
    (x := 0) (r := 1) (next := 2) rfl rfl
  obtain ⟨nizk, t', w', h, _⟩ := C39_larger_ranges_partial (Ex.env 5) exNeStore _ (Ex.P 1) (Ex.P 1) (Ex.P 3) 0 4 2 2
    0 1 2 t (by decide) (by decide) (by decide) rfl rfl (by decide) (by decide) (by decide) (by decide) (by decide)
    ht [(0, 2)] (fun _ => 3) "m" (by decide) ⟨rfl, trivial⟩ (by
      intro y _ z _ e
      have e := congrArg String.length e
      simpa [exNeStore] using e)
  have hc : nizk.challenge % 2 ^ challengeLength ≠ 0 := by
    obtain ⟨id, pc, cm, he⟩ := nizk_challenge h
    obtain ⟨_, _, he⟩ := bind_ok_iff.mp he
    rw [show nizk.challenge = 5 from (Except.ok.inj he).symm]
    decide
  exact ⟨t, nizk, t', w', ht, h, C60_range_stmt_reveals (Ex.env 5) exNeStore _ (Ex.P 1) (Ex.P 1) (Ex.P 3) 0 4 2 2
    0 1 2 t t' rfl rfl (by decide) ht [(0, 2)] (fun _ => 3) "m" (by decide) nizk w' h hc⟩

/-- **C60**, what is hidden (missing: the responses, which reveal the value, see `C60_range_proof_reveals`): the
precommitment of a range proof does not depend on the value.  Let two provers be able to open the same
commitment, to `x₁`, `r₁` and to `x₂`, `r₂`, where `G = a H` and `H` has the order of the group.  Then the random
numbers of the first can be translated one-to-one into random numbers of the second such that the
precommitments are equal; `M` is a multiple of the order. -/
theorem C60_precommitments_coincide_partial (s₁ s₂ : PowerTwo E) (σ₁ σ₂ : Store) (x₁ r₁ x₂ r₂ a : Int) (M : Nat)
    (hM0 : M ≠ 0) (hM : s₁.g.grp.order ∣ M) (hg : s₂.g = s₁.g) (hh : s₂.h = s₁.h)
    (hrands : s₂.rands = s₁.rands) (hp : s₁.isProver = true ∧ s₂.isProver = true) (hgrp : s₁.h.grp = s₁.g.grp)
    (hnd : s₁.rands.Nodup) (hr : s₁.r ∉ s₁.rands ∧ s₂.r ∉ s₁.rands)
    (ha : s₁.g.val = a • s₁.h.val) (htor : (s₁.g.grp.order : Int) • s₁.h.val = 0)
    (hord : ∀ n : Int, n • s₁.h.val = 0 → (s₁.g.grp.order : Int) ∣ n)
    (hx₁ : σ₁.value s₁.x = some x₁ ∧ 0 ≤ x₁ ∧ x₁ < 2 ^ s₁.numBits) (hr₁ : σ₁.value s₁.r = some r₁)
    (hx₂ : σ₂.value s₂.x = some x₂ ∧ 0 ≤ x₂ ∧ x₂ < 2 ^ s₁.numBits) (hr₂ : σ₂.value s₂.r = some r₂)
    (hc₁ : s₁.com.val = x₁ • s₁.g.val + r₁ • s₁.h.val) (hc₂ : s₁.com.val = x₂ • s₁.g.val + r₂ • s₁.h.val) :
    ∃ e : Equiv.Perm (Fin s₁.numBits → Fin M), ∀ (y : Fin s₁.numBits → Fin M) (rest : Nat → Nat), ∃ v w₁ w₂,
      s₁.precommit ⟨σ₁, tape y rest⟩ = .ok (v, w₁) ∧ w₁.rng = rest ∧
      s₂.precommit ⟨σ₂, tape (e y) rest⟩ = .ok (v, w₂) ∧ w₂.rng = rest := by
  have : NeZero M := ⟨hM0⟩
  have hq0 : s₁.g.grp.order ≠ 0 := fun h0 => hM0 (by rw [h0] at hM; exact Nat.eq_zero_of_zero_dvd hM)
  have hn : s₂.numBits = s₁.numBits := by unfold PowerTwo.numBits; rw [hrands]
  obtain ⟨bs₁, b1⟩ := decompose_isOk hx₁.2.1 hx₁.2.2
  obtain ⟨bs₂, b2⟩ := decompose_isOk hx₂.2.1 hx₂.2.2
  obtain ⟨l1, _, l3⟩ := decompose_ok b1
  obtain ⟨m1, _, m3⟩ := decompose_ok b2
  let δ : Fin s₁.numBits → Fin M := fun j => Fin.ofNat M
    ((((bs₁.getD j 0 - bs₂.getD j 0) * a) % (M : Int)).toNat)
  refine ⟨Equiv.addRight δ, fun y rest => ?_⟩
  have hrest : ∀ z : Fin s₁.numBits → Fin M, (fun i => tape z rest (i + s₁.numBits)) = rest := by
    intro z
    funext i
    simp only [tape]
    rw [dif_neg (by omega)]
    congr 1
    omega
  obtain ⟨w₁, k1, k2⟩ := PowerTwo.precommit_given (w := ⟨σ₁, tape y rest⟩) hp.1 hgrp hq0 hnd hr.1 hx₁.1 b1 hr₁
  obtain ⟨w₂, k3, k4⟩ := PowerTwo.precommit_given (s := s₂) (w := ⟨σ₂, tape (Equiv.addRight δ y) rest⟩) hp.2
    (by rw [hh, hg]; exact hgrp) (by rw [hg]; exact hq0) (by rw [hrands]; exact hnd) (by rw [hrands]; exact hr.2)
    hx₂.1 (by rw [hn]; exact b2) hr₂
  refine ⟨_, w₁, w₂, k2, by rw [k1]; exact hrest y, ?_, by rw [k3, hn]; exact hrest _⟩
  rw [k4, hn]
  have ho : s₂.order = s₁.order := by unfold PowerTwo.order; rw [hg]
  rw [ho, hg, hh]
  have hlen : ∀ rng, (PowerTwo.drawn s₁.order s₁.numBits rng).length = s₁.numBits := by
    intro rng; simp [PowerTwo.drawn]
  obtain ⟨e1, e2⟩ := PowerTwo.bits_agree (q := s₁.order) ha htor bs₁ bs₂
    (PowerTwo.drawn s₁.order s₁.numBits (tape y rest))
    (PowerTwo.drawn s₁.order s₁.numBits (tape (Equiv.addRight δ y) rest))
    (by rw [l1, hlen]) (by rw [m1, hlen]) (by rw [l1, m1]) (by
      intro i c₁ c₂ v₁ v₂ h1 h2 h3 h4
      have hi : i < s₁.numBits := by rw [← l1]; exact (List.getElem?_eq_some_iff.mp h1).1
      have hv : ∀ (rng : Nat → Nat) (v : Int), (PowerTwo.drawn s₁.order s₁.numBits rng)[i]? = some v →
          v = ((rng i % s₁.order : Nat) : Int) := by
        intro rng v hv
        unfold PowerTwo.drawn at hv
        rw [List.getElem?_map, List.getElem?_range hi, Option.map_some, Option.some.injEq] at hv
        exact hv.symm
      have hv1 := hv _ _ h3
      have hv2 := hv _ _ h4
      simp only [tape, dif_pos hi, Equiv.coe_addRight, Pi.add_apply, Fin.val_add] at hv1 hv2
      have hqM : (s₁.order : Int) ∣ (M : Int) := Int.natCast_dvd_natCast.mpr hM
      have hMpos : (0 : Int) < M := by omega
      have hδ : (((δ ⟨i, hi⟩ : Fin M) : Nat) : Int) = ((c₁ - c₂) * a) % (M : Int) := by
        simp only [δ, Fin.val_ofNat]
        have g1 : bs₁.getD i 0 = c₁ := by rw [List.getD_eq_getElem?_getD, h1]; rfl
        have g2 : bs₂.getD i 0 = c₂ := by rw [List.getD_eq_getElem?_getD, h2]; rfl
        rw [g1, g2]
        have h1 := Int.emod_nonneg ((c₁ - c₂) * a) (ne_of_gt hMpos)
        rw [Int.natCast_mod, Int.toNat_of_nonneg h1, Int.emod_emod]
      apply Int.dvd_of_emod_eq_zero
      rw [← Int.emod_eq_emod_iff_emod_sub_eq_zero, hv2, hv1, Int.natCast_mod, Int.natCast_mod, Int.natCast_mod,
        Int.natCast_add, Int.emod_emod, Int.emod_emod_of_dvd _ hqM, hδ]
      rw [Int.add_emod, Int.emod_emod_of_dvd _ hqM]
      conv_rhs => rw [Int.add_emod, Int.emod_emod])
  have hz : List.zipWith (fun b v => (⟨s₁.g.grp, b • s₁.g.val + v • s₁.h.val⟩ : Pt E)) bs₂
      (PowerTwo.drawn s₁.order s₁.numBits (tape (Equiv.addRight δ y) rest)) =
      List.zipWith (fun b v => (⟨s₁.g.grp, b • s₁.g.val + v • s₁.h.val⟩ : Pt E)) bs₁
      (PowerTwo.drawn s₁.order s₁.numBits (tape y rest)) := by
    have := congrArg (List.map fun z : E => (⟨s₁.g.grp, z⟩ : Pt E)) e1
    rw [List.map_zipWith, List.map_zipWith] at this
    exact this.symm
  have hrand : (PowerTwo.sumRands s₁.order 0 1 (PowerTwo.drawn s₁.order s₁.numBits (tape (Equiv.addRight δ y) rest)) -
      r₂) % (s₁.order : Int) = (PowerTwo.sumRands s₁.order 0 1 (PowerTwo.drawn s₁.order s₁.numBits (tape y rest)) -
      r₁) % (s₁.order : Int) := by
    have d1 := PowerTwo.sumRands_mod s₁.order (PowerTwo.drawn s₁.order s₁.numBits (tape y rest)) 0 1
    have d2 := PowerTwo.sumRands_mod s₁.order
      (PowerTwo.drawn s₁.order s₁.numBits (tape (Equiv.addRight δ y) rest)) 0 1
    rw [zero_add, one_mul] at d1 d2
    have d3 : (s₁.order : Int) ∣ (x₁ * a + r₁) - (x₂ * a + r₂) := by
      apply hord
      rw [sub_smul, add_smul, add_smul, mul_smul, mul_smul, ← ha, ← hc₁, ← hc₂, sub_self]
    rw [l3, m3] at e2
    apply Int.emod_eq_emod_iff_emod_sub_eq_zero.mpr
    apply Int.emod_eq_zero_of_dvd
    have := dvd_add (dvd_sub d2 d1) (dvd_add e2 d3)
    refine (Eq.subst (motive := fun z => (s₁.order : Int) ∣ z) ?_ this)
    ring
  rw [hz, hrand]

/-- The hypotheses of `C60_precommitments_coincide_partial` are met: 3 with randomizer 4 and 1 with randomizer
0 open the commitment of `exThree`; `1 = 5·3` modulo 7. -/
example : ∃ e : Equiv.Perm (Fin 2 → Fin 7), ∀ (y : Fin 2 → Fin 7) (rest : Nat → Nat), ∃ v w₁ w₂,
    exThree.precommit ⟨⟨exNeStore.name, fun y => if y = 2 then some 4 else some 3⟩, tape y rest⟩ = .ok (v, w₁) ∧
    w₁.rng = rest ∧
    exThree.precommit ⟨⟨exNeStore.name, fun y => if y = 2 then some 0 else some 1⟩, tape (e y) rest⟩ =
      .ok (v, w₂) ∧ w₂.rng = rest :=
  C60_precommitments_coincide_partial exThree exThree _ _ 3 4 1 0 5 7 (by decide) (by decide) rfl rfl rfl
    ⟨rfl, rfl⟩ rfl (by decide) (by decide) (by decide) (by decide) (by
      intro n hn
      have h3 : (n • (3 : ZMod 7) : ZMod 7) = 0 := hn
      rw [zsmul_eq_mul] at h3
      have h4 : (n : ZMod 7) = 0 := by
        have := congrArg (· * (5 : ZMod 7)) h3
        simp only [zero_mul, mul_assoc] at this
        rw [show (3 : ZMod 7) * 5 = 1 by decide, mul_one] at this
        exact this
      exact (ZMod.intCast_zmod_eq_zero_iff_dvd n 7).mp h4)
    ⟨rfl, by decide, by decide⟩ rfl ⟨rfl, by decide, by decide⟩ rfl (by decide) (by decide)

end Zksk.Props
