import Verif.Lemmas.BBSProof
import Verif.Props.BBS
import Verif.Props.Sound

/-! # C44, C45: proofs of knowledge of BBS+ signatures -/

set_option linter.unusedSectionVars false

namespace Zksk.Props

open Spec

variable {E : Type} [AddCommGroup E] [DecidableEq E]

/-! ### C44 -/

/-- **C44** Given a valid signature on at least one message, and the values of the messages in the secrets, and
`e` and `s` in the first two (where `BBSPlusSignatureStmt(…)` puts them): for every randomness, `precommit()`
succeeds, the statement can be constructed from the precommitment, and it is true for the values the secrets then
have.  Nothing but the four internal secrets changes. -/
theorem C44_witness (P : Pairing E) (s : BBS E) (sig : Signature E) (ms : List Int) (hP : s.P = P)
    (hk : GoodKey P s.pk) (hord : P.order ≠ 0) (htor : ∀ g ∈ s.pk.generators, (P.order : Int) • g.val = 0)
    (hsig : s.signature = some sig) (hms : ms ≠ []) (hfit : ms.length + 2 ≤ s.pk.generators.length)
    (hvalid : sig.verify P s.pk ms = .ok true) (w : World)
    (hvals : s.vars.map w.store.value = (sig.e :: sig.s :: ms).map some)
    (hpriv : [s.r1, s.r2, s.delta1, s.delta2].Nodup ∧
      ∀ x ∈ [s.r1, s.r2, s.delta1, s.delta2], x ∉ s.vars) :
    ∃ v w' k, s.precommit w = .ok (v, w') ∧ s.construct w'.store v = .ok k ∧ Holds w'.store k valueOf ∧
      ∀ x, x ∉ [s.r1, s.r2, s.delta1, s.delta2] → w'.store.key x = w.store.key x := by
  have hA := verify_G1 hvalid
  have hlen : s.vars.length = ms.length + 2 := by simpa using congrArg List.length hvals
  obtain ⟨g0, g1, g2, gs, hg⟩ : ∃ g0 g1 g2 gs, s.pk.generators = g0 :: g1 :: g2 :: gs := by
    have hpos := List.length_pos_iff.mpr hms
    match h : s.pk.generators with
    | [] => simp [h] at hfit
    | [_] => simp [h] at hfit
    | [_, _] =>
      rw [h] at hfit
      simp only [List.length_cons, List.length_nil] at hfit
      omega
    | g0 :: g1 :: g2 :: gs => exact ⟨_, _, _, _, rfl⟩
  obtain ⟨ve, vs, vm, hv⟩ : ∃ ve vs vm, s.vars = ve :: vs :: vm := by
    match h : s.vars with
    | [] => simp [h] at hlen
    | [_] => simp [h] at hlen
    | ve :: vs :: vm => exact ⟨_, _, _, rfl⟩
  have hvm : vm.length = ms.length := by rw [hv] at hlen; simpa using hlen
  have hpos := List.length_pos_iff.mpr hms
  have hgl : ms.length ≤ gs.length + 1 := by rw [hg] at hfit; simpa using hfit
  have hgr := hk.g1
  rw [hg] at hgr htor
  have k0 := hgr g0 (by simp)
  have k1 := hgr g1 (by simp)
  have k2 := hgr g2 (by simp)
  have hbases : s.bases = (g0 :: g1 :: g2 :: gs).take (vm.length + 2) := by
    unfold BBS.bases; rw [hg, hv]; rfl
  have b0 : listAt s.bases 0 = .ok g0 := by rw [listAt_ok, hbases]; simp
  have b1 : listAt s.bases 1 = .ok g1 := by rw [listAt_ok, hbases]; simp
  have b2 : listAt s.bases 2 = .ok g2 := by
    rw [listAt_ok, hbases, List.getElem?_take_of_lt (by omega)]; rfl
  obtain ⟨r1, w1, hr1, e1⟩ := draw_progress (m := g0.grp.order) (by rw [k0]; exact hord) w
  obtain ⟨r2, w2, hr2, e2⟩ := draw_progress (m := g0.grp.order) (by rw [k0]; exact hord) w1
  have hσ : w2.store = w.store := e2.trans e1
  have hpre : s.precommit w = .ok (.dict [("A1", .pt ⟨P.G1, r1 • g1.val + r2 • g2.val⟩),
      ("A2", .pt ⟨P.G1, r1 • g2.val + sig.A.val⟩)],
      { w2 with store := (((w.store.setValue s.r1 r1).setValue s.r2 r2).setValue s.delta1
        (r1 * sig.e % (P.order : Int))).setValue s.delta2 (r2 * sig.e % (P.order : Int)) }) := by
    unfold BBS.precommit
    simp only [hsig]
    rw [b0]
    simp only [pm_liftE_bind]
    rw [pm_bind_eq hr1, pm_bind_eq hr2, pm_getStore_bind, pm_setStore_bind, b1]
    simp only [pm_liftE_bind]
    rw [b2]
    simp only [pm_liftE_bind]
    rw [pt_add_of (by rw [Pt.smul, Pt.smul, k1, k2])]
    simp only [pm_liftE_bind]
    rw [pt_add_of (by rw [Pt.smul, hA, k2])]
    simp only [pm_liftE_bind, Pt.smul, hσ, k0, k1, k2]
    rfl
  obtain ⟨hnd, hnv⟩ := hpriv
  simp only [List.nodup_cons, List.mem_cons, List.not_mem_nil, or_false, not_or,
    List.nodup_nil, and_true] at hnd
  obtain ⟨⟨n1, n2, n3⟩, ⟨n4, n5⟩, n6, _⟩ := hnd
  generalize hw' : ({ w2 with store := _ } : World) = w' at hpre
  have hst : w'.store = (((w.store.setValue s.r1 r1).setValue s.r2 r2).setValue s.delta1
        (r1 * sig.e % (P.order : Int))).setValue s.delta2 (r2 * sig.e % (P.order : Int)) := by rw [← hw']
  have hframe : ∀ x, x ∉ [s.r1, s.r2, s.delta1, s.delta2] → w'.store.key x = w.store.key x := by
    intro x hx
    simp only [List.mem_cons, List.not_mem_nil, or_false, not_or] at hx
    rw [hst]
    simp [Store.key, Store.setValue, hx.1, hx.2.1, hx.2.2.1, hx.2.2.2]
  refine ⟨_, w', _, hpre, BBS.construct_of hP hk (a1 := ⟨P.G1, r1 • g1.val + r2 • g2.val⟩)
    (a2 := ⟨P.G1, r1 • g2.val + sig.A.val⟩) rfl rfl hg hv (by omega) (by omega) rfl rfl, ?_, hframe⟩
  have x1 : valueOf (w'.store.key s.r1) = r1 := by
    rw [hst]; simp [valueOf, Store.key, Store.setValue, n1, n2, n3]
  have x2 : valueOf (w'.store.key s.r2) = r2 := by
    rw [hst]; simp [valueOf, Store.key, Store.setValue, n4, n5]
  have x3 : valueOf (w'.store.key s.delta1) = r1 * sig.e % (P.order : Int) := by
    rw [hst]; simp [valueOf, Store.key, Store.setValue, n6]
  have x4 : valueOf (w'.store.key s.delta2) = r2 * sig.e % (P.order : Int) := by
    rw [hst]; simp [valueOf, Store.key, Store.setValue]
  have hout : ∀ x ∈ s.vars, w'.store.key x = w.store.key x := fun x hx =>
    hframe x fun hm => hnv x hm hx
  rw [hv] at hvals hout
  simp only [List.map_cons, List.cons.injEq] at hvals
  have x5 : valueOf (w'.store.key ve) = sig.e := by
    rw [hout ve (by simp)]; simp [valueOf, Store.key, hvals.1]
  have x6 : valueOf (w'.store.key vs) = sig.s := by
    rw [hout vs (by simp)]; simp [valueOf, Store.key, hvals.2.1]
  have x7 : vm.map (fun x => valueOf (w'.store.key x)) = ms := by
    have : vm.map (fun x => valueOf (w'.store.key x)) = (vm.map w.store.value).map fun o => o.getD 0 := by
      rw [List.map_map]
      refine List.map_congr_left fun x hx => ?_
      rw [hout x (by simp [hx])]
      rfl
    rw [this, hvals.2.2, List.map_map]
    simp
  have hmod : ∀ (r : Int) (g : Pt E), g ∈ g0 :: g1 :: g2 :: gs →
      (r * sig.e % (P.order : Int)) • g.val = (r * sig.e) • g.val := by
    intro r g hgm
    rw [← sub_eq_zero, ← sub_smul]
    refine smul_of_dvd ?_ (htor g hgm)
    have := Int.dvd_self_sub_emod (x := r * sig.e) (m := (P.order : Int))
    rw [← Int.neg_sub, Int.dvd_neg]
    exact this
  refine .all _ _ _ fun t ht => ?_
  simp only [BBS.parts, List.mem_cons, List.not_mem_nil, or_false] at ht
  rcases ht with rfl | rfl | rfl
  · refine .rep _ _ (by simp [k1, k2]) ?_
    simp only [List.zipWith_cons_cons, List.zipWith_nil_right, List.sum_cons, List.sum_nil, add_zero, x1, x2]
  · refine .rep _ _ (by simp [k1, k2, Pt.smul]) ?_
    simp only [List.zipWith_cons_cons, List.zipWith_nil_right, List.sum_cons, List.sum_nil, add_zero, x3, x4, x5,
      Pt.smul]
    rw [hmod r1 g1 (by simp), hmod r2 g2 (by simp), neg_smul, one_smul, smul_neg, smul_add, ← mul_smul, ← mul_smul,
      mul_comm sig.e, mul_comm sig.e]
    abel
  · refine .rep _ _ ?_ ?_
    · simp only [List.mem_cons]
      rintro p (rfl | rfl | rfl | rfl | hp)
      · rfl
      · rfl
      · rfl
      · rfl
      · obtain ⟨g, _, rfl⟩ := List.mem_map.mp (List.mem_of_mem_take hp)
        rfl
    · refine Eq.trans ?_ (BBS.sum_three P s.pk (fun x => valueOf (w'.store.key x))
        ⟨P.G1, r1 • g2.val + sig.A.val⟩ g1 g2 gs ve s.r1 s.delta1 vs vm).symm
      simp only
      rw [x1, x3, x5, x6, x7]
      rw [verify_eq hk hg _ _ hA] at hvalid
      have heq := of_decide_eq_true (Except.ok.inj hvalid)
      have hm2 : (r1 * sig.e % (P.order : Int)) • P.e g2.val s.pk.h0.val = (r1 * sig.e) • P.e g2.val s.pk.h0.val := by
        rw [← AddMonoidHom.smul_apply, ← map_zsmul, hmod r1 g2 (by simp), map_zsmul, AddMonoidHom.smul_apply]
      rw [hm2]
      simp only [map_add, map_zsmul, AddMonoidHom.add_apply, AddMonoidHom.smul_apply, neg_smul, one_smul, smul_add] at heq ⊢
      have h3 : P.e sig.A.val s.pk.w.val = (P.e g0.val) s.pk.h0.val + sig.s • (P.e g1.val) s.pk.h0.val +
        (P.e (lin ms (g2 :: gs))) s.pk.h0.val - sig.e • (P.e sig.A.val) s.pk.h0.val := by
        rw [← heq]; abel
      rw [h3, ← mul_smul, mul_comm sig.e]
      abel

/-- `BBSPlusSignatureStmt(messages, pk, signature)` with `binding`, or with the two secrets for `e` and `s` added:
what the previous theorem asks of the heap holds right after the call, if no secret occurs twice and the values of
the messages are known. -/
theorem C44_constructor (P : Pairing E) (σ : Store) (vars : List Sec) (pk : PublicKey E) (sig : Signature E)
    (binding : Bool) (next : Nat) (ms : List Int) (ve vs : Sec) (vm : List Sec)
    (hvars : (if binding then vars else next :: (next + 1) :: vars) = ve :: vs :: vm)
    (hnd : (ve :: vs :: vm).Nodup) (hold : ∀ x ∈ vars, x < next) (hm : vm.map σ.value = ms.map some)
    (hgen : pk.generators ≠ []) :
    ∃ σ1 s, mkBBS P σ vars pk (some sig) binding next = .ok (σ1, s) ∧ s.P = P ∧ s.pk = pk ∧
      s.signature = some sig ∧ s.vars = ve :: vs :: vm ∧
      s.vars.map σ1.value = (sig.e :: sig.s :: ms).map some ∧
      [s.r1, s.r2, s.delta1, s.delta2].Nodup ∧ ∀ x ∈ [s.r1, s.r2, s.delta1, s.delta2], x ∉ s.vars := by
  obtain ⟨g, hg⟩ : ∃ g, listAt (pk.generators.take (ve :: vs :: vm).length) 0 = .ok g := by
    cases h : pk.generators with
    | nil => exact absurd h hgen
    | cons g gs => exact ⟨g, by rw [listAt_ok]; rfl⟩
  unfold mkBBS
  simp only [hvars, hg, bind_ok]
  refine ⟨_, _, rfl, rfl, rfl, rfl, rfl, ?_, ?_, ?_⟩
  · simp only [List.nodup_cons, List.mem_cons, not_or] at hnd
    simp only [List.map_cons, List.cons.injEq, ← hm]
    refine ⟨?_, ?_, ?_⟩
    · simp [Store.setValue, hnd.1.1]
    · simp [Store.setValue]
    · refine List.map_congr_left fun x hx => ?_
      have h1 : x ≠ ve := fun h => hnd.1.2 (h ▸ hx)
      have h2 : x ≠ vs := fun h => hnd.2.1 (h ▸ hx)
      simp [Store.setValue, h1, h2]
  · generalize (if binding then next else next + 2) = n
    have ne : ∀ a b : Nat, a < b → (n + a : Nat) ≠ n + b := fun a b h => by omega
    have h0 := ne 0 1 (by omega)
    have h1 := ne 0 2 (by omega)
    have h2 := ne 0 3 (by omega)
    have h3 := ne 1 2 (by omega)
    have h4 := ne 1 3 (by omega)
    have h5 := ne 2 3 (by omega)
    simp only [Nat.add_zero] at h0 h1 h2
    simp only [List.nodup_cons, List.mem_cons, List.not_mem_nil, or_false, not_or, List.nodup_nil, and_true,
      not_false_eq_true]
    exact ⟨⟨h0, h1, h2⟩, ⟨h3, h4⟩, h5⟩
  · intro x hx hmem
    have hx' : (if binding then next else next + 2) ≤ x := by
      generalize (if binding then next else next + 2) = n at hx ⊢
      simp only [List.mem_cons, List.not_mem_nil, or_false] at hx
      rcases hx with rfl | rfl | rfl | rfl
      · exact Nat.le_refl _
      · exact Nat.le_add_right _ _
      · exact Nat.le_add_right _ _
      · exact Nat.le_add_right _ _
    rw [← hvars] at hmem
    cases binding with
    | true =>
      simp only [if_true] at hmem hx'
      exact absurd (hold x hmem) (Nat.not_lt.mpr hx')
    | false =>
      simp only [Bool.false_eq_true, if_false, List.mem_cons] at hmem hx'
      rcases hmem with rfl | rfl | hmem
      · exact absurd hx' (Nat.not_le.mpr (Nat.lt_add_of_pos_right (by decide)))
      · exact absurd hx' (Nat.not_le.mpr (Nat.lt_succ_self _))
      · exact absurd (Nat.lt_of_lt_of_le (hold x hmem) (Nat.le_trans (Nat.le_add_right _ _) hx')) (Nat.lt_irrefl x)

/-- Secrets 0 and 1 have the values 4 and 6. -/
def exMsgs : Store where
  name s := String.ofList (List.replicate s 'x')
  value s := if s = 0 then some 4 else if s = 1 then some 6 else none

/-- A statement about `exSig`, which signs the values 4, 6 of the secrets 0, 1; not binding. -/
example : ∃ σ1 s, mkBBS exPairing exMsgs [0, 1] exPk (some exSig) false 2 = .ok (σ1, s) ∧
    ∀ rng, ∃ v w' k, s.precommit ⟨σ1, rng⟩ = .ok (v, w') ∧ s.construct w'.store v = .ok k ∧
      Holds w'.store k valueOf := by
  obtain ⟨σ1, s, h1, h2, h3, h4, h5, h6, h7, h8⟩ := C44_constructor exPairing exMsgs [0, 1] exPk exSig false 2 [4, 6]
    2 3 [0, 1] rfl (by decide) (by decide) (by decide) (by simp [exPk])
  refine ⟨σ1, s, h1, fun rng => ?_⟩
  obtain ⟨v, w', k, i1, i2, i3, _⟩ := C44_witness exPairing s exSig [4, 6] h2 (h3 ▸ exKey.good) (by decide)
    (by rw [h3]; decide) h4 (by simp) (by rw [h3]; decide) (by rw [h3]; decide) ⟨σ1, rng⟩ h6 ⟨h7, h8⟩
  exact ⟨v, w', k, i1, i2, i3⟩

/-! ### C45 -/

/-- **C45** Whatever the precommitment: if the statement constructed from it is true for the values `X` of the
secrets, then either `(A2 - r1 g2, e, s)` is a signature accepted by `verify_signature()` on the values of the
message secrets, or the values give a non-trivial relation between the second and third generator, with
coefficients `δ1 - e r1` and `δ2 - e r2`. -/
theorem C45_witness (P : Pairing E) (s : BBS E) (hP : s.P = P) (hk : GoodKey P s.pk)
    (hh : (P.order : Int) • s.pk.h0.val = 0) (σ : Store) (v : Val E) (k : Core E) (X : Key → Int)
    (hc : s.construct σ v = .ok k) (h : Holds σ k X) :
    ∃ ve vs vm g1 g2 a2, s.vars = ve :: vs :: vm ∧ s.pk.generators[1]? = some g1 ∧
      s.pk.generators[2]? = some g2 ∧ v.lookup "A2" = .ok (.pt a2) ∧
      ((⟨⟨P.G1, a2.val - X (σ.key s.r1) • g2.val⟩, X (σ.key ve), X (σ.key vs)⟩ : Signature E).verify P s.pk
          (vm.map fun x => X (σ.key x)) = .ok true ∨
        (X (σ.key s.delta1) - X (σ.key ve) * X (σ.key s.r1)) • g1.val +
            (X (σ.key s.delta2) - X (σ.key ve) * X (σ.key s.r2)) • g2.val = 0 ∧
          ¬ (P.order : Int) ∣ X (σ.key s.delta1) - X (σ.key ve) * X (σ.key s.r1)) := by
  obtain ⟨a1, a2, g0, g1, g2, gs, ve, vs, vm, l1, l2, hg, hv, hvm, hl, ga1, ga2, rfl⟩ := BBS.construct_inv hP hk hc
  refine ⟨ve, vs, vm, g1, g2, a2, hv, by rw [hg]; rfl, by rw [hg]; rfl, l2, ?_⟩
  cases h with
  | all _ _ _ h =>
  have h1 := h (.leaf ⟨a1, [g1, g2], [s.r1, s.r2], knownValues σ [s.r1, s.r2] [], false⟩) (by simp [BBS.parts])
  have h2 := h (.leaf ⟨⟨P.G1, 0⟩, [g1, g2, Pt.smul (-1) a1], [s.delta1, s.delta2, ve],
    knownValues σ [s.delta1, s.delta2, ve] [], false⟩) (by simp [BBS.parts])
  have h3 := h _ (List.mem_cons_of_mem _ (List.mem_cons_of_mem _ (List.mem_cons_self ..)))
  cases h1 with
  | rep _ _ _ h1 =>
  cases h2 with
  | rep _ _ _ h2 =>
  cases h3 with
  | rep _ _ _ h3 =>
  simp only [List.zipWith_cons_cons, List.zipWith_nil_right, List.sum_cons, List.sum_nil, add_zero, Pt.smul] at h1 h2
  have h3' := h3.trans (BBS.sum_three P s.pk (fun x => X (σ.key x)) a2 g1 g2 gs ve s.r1 s.delta1 vs vm)
  simp only at h3'
  by_cases hd : (P.order : Int) ∣ X (σ.key s.delta1) - X (σ.key ve) * X (σ.key s.r1)
  · left
    rw [verify_eq hk hg (⟨⟨P.G1, a2.val - X (σ.key s.r1) • g2.val⟩, X (σ.key ve), X (σ.key vs)⟩ : Signature E) _ rfl]
    congr 1
    rw [decide_eq_true_iff]
    have hz : (X (σ.key s.delta1) - X (σ.key ve) * X (σ.key s.r1)) • P.e g2.val s.pk.h0.val = 0 := by
      refine smul_of_dvd hd ?_
      rw [← map_zsmul, hh, map_zero]
    rw [sub_smul, sub_eq_zero] at hz
    rw [hz] at h3'
    simp only [map_add, map_sub, map_zsmul, AddMonoidHom.add_apply, AddMonoidHom.sub_apply, AddMonoidHom.smul_apply,
      neg_smul, one_smul, smul_sub] at h3' ⊢
    have h4 : P.e a2.val s.pk.w.val = P.e g0.val s.pk.h0.val +
        (-(X (σ.key ve) • P.e a2.val s.pk.h0.val) + X (σ.key s.r1) • P.e g2.val s.pk.w.val +
        (X (σ.key ve) * X (σ.key s.r1)) • P.e g2.val s.pk.h0.val + X (σ.key vs) • P.e g1.val s.pk.h0.val +
        P.e (lin (vm.map fun x => X (σ.key x)) (g2 :: gs)) s.pk.h0.val) := by
      rw [← h3']; abel
    rw [h4, ← mul_smul]
    abel
  · right
    refine ⟨?_, hd⟩
    rw [h1, neg_smul, one_smul, smul_neg, smul_add, ← mul_smul, ← mul_smul] at h2
    rw [h2, sub_smul, sub_smul]
    abel

/-- **C45** With independent second and third generators the values of a true statement contain a valid
signature on the values of the message secrets. -/
theorem C45_independent (P : Pairing E) (s : BBS E) (hP : s.P = P) (hk : GoodKey P s.pk)
    (hh : (P.order : Int) • s.pk.h0.val = 0)
    (hind : ∀ g1 g2, s.pk.generators[1]? = some g1 → s.pk.generators[2]? = some g2 →
      ∀ a b : Int, a • g1.val + b • g2.val = 0 → (P.order : Int) ∣ a)
    (σ : Store) (v : Val E) (k : Core E) (X : Key → Int) (hc : s.construct σ v = .ok k) (h : Holds σ k X) :
    ∃ ve vs vm A, s.vars = ve :: vs :: vm ∧
      (⟨A, X (σ.key ve), X (σ.key vs)⟩ : Signature E).verify P s.pk (vm.map fun x => X (σ.key x)) = .ok true := by
  obtain ⟨ve, vs, vm, g1, g2, a2, hv, e1, e2, _, h | ⟨h1, h2⟩⟩ := C45_witness P s hP hk hh σ v k X hc h
  · exact ⟨ve, vs, vm, _, hv, h⟩
  · exact absurd (hind g1 g2 e1 e2 _ _ h1) h2

/-- **C45** The same for accepted protocol runs: if, after some precommitment, the verifier accepts answers to two
challenges with the same commitment whose difference is invertible modulo the order, then one obtains, as in the
previous theorems, a signature on the message values, or a relation between the generators.  The values `X` are
`u (r - r')` for the responses to the three representations. -/
theorem C45_accepted (P : Pairing E) (s : BBS E) (gen : E) (hP : s.P = P) (hk : GoodKey P s.pk)
    (hall : ∀ x : E, (P.order : Int) • x = 0) (σ : Store) (t1 : Stmt E) (v com r r' : Val E) (c c' u : Int)
    (hd : digestPrecommitment σ (Tree.freshVerifier (s.stmt gen false)) v = .ok t1)
    (hu : u * (c - c') % P.order = 1 % P.order)
    (h : verifyResponse σ t1 com c r = .ok true) (h' : verifyResponse σ t1 com c' r' = .ok true) :
    ∃ (X : Key → Int) (ve vs : Sec) (vm : List Sec) (g1 g2 a2 : Pt E), s.vars = ve :: vs :: vm ∧
      s.pk.generators[1]? = some g1 ∧ s.pk.generators[2]? = some g2 ∧ v.lookup "A2" = .ok (.pt a2) ∧
      (∀ (n i : Nat) (xs : List Sec) (x : Sec) (rn rn' : Val E) (y y' : Int),
        [[s.r1, s.r2], [s.delta1, s.delta2, ve], ve :: s.r1 :: s.delta1 :: vs :: vm][n]? = some xs → xs[i]? = some x →
        r.index n = .ok rn → r'.index n = .ok rn' → rn.index i = .ok (.int y) → rn'.index i = .ok (.int y') →
        X (σ.key x) = u * (y - y')) ∧
      ((⟨⟨P.G1, a2.val - X (σ.key s.r1) • g2.val⟩, X (σ.key ve), X (σ.key vs)⟩ : Signature E).verify P s.pk
          (vm.map fun x => X (σ.key x)) = .ok true ∨
        (X (σ.key s.delta1) - X (σ.key ve) * X (σ.key s.r1)) • g1.val +
            (X (σ.key s.delta2) - X (σ.key ve) * X (σ.key s.r2)) • g2.val = 0 ∧
          ¬ (P.order : Int) ∣ X (σ.key s.delta1) - X (σ.key ve) * X (σ.key s.r1)) := by
  obtain ⟨S, k, hdig, hkk⟩ := verifyResponse_stmt hd h
  rw [hkk] at h h'
  obtain ⟨_, hcon, _⟩ := digestedTop_ext hdig
  have hcon' : s.construct σ v = .ok k := hcon
  obtain ⟨a1, a2, g0, g1, g2, gs, ve, vs, vm, l1, l2, hg, hv, hvm, hl, ga1, ga2, hkeq⟩ := BBS.construct_inv hP hk hcon'
  have hof : OrFree k := by
    subst hkeq
    refine .all _ _ fun t ht => ?_
    simp only [BBS.parts, List.mem_cons, List.not_mem_nil, or_false] at ht
    rcases ht with rfl | rfl | rfl <;> exact .rep _
  have hwf : WellFormed k := by
    subst hkeq
    simp [BBS.parts, WellFormed, WellFormedL]
    omega
  have hkl : Killed (P.order : Int) k := by
    subst hkeq
    simp only [BBS.parts, Killed, KilledL, hall, implies_true, and_self, and_true]
  obtain ⟨X, hX, hocc⟩ := C18_and_extraction σ k com r r' c c' u P.order hof hwf hkl hu h h'
  obtain ⟨ve', vs', vm', g1', g2', a2', hv', q1, q2, q3, q⟩ := C45_witness P s hP hk (hall _) σ v k X hcon' hX
  rw [hv] at hv'
  simp only [List.cons.injEq] at hv'
  obtain ⟨rfl, rfl, rfl⟩ := hv'
  refine ⟨X, ve, vs, vm, g1', g2', a2', hv, q1, q2, q3, ?_, q⟩
  intro n i xs x rn rn' y y' hn hi hr hr' hy hy'
  have hocc' : ∀ (r rn : Val E) (y : Int), r.index n = .ok rn → rn.index i = .ok (.int y) → Occ k r x (.int y) := by
    intro r rn y hr hy
    subst hkeq
    match n, hn with
    | 0, hn =>
      simp only [List.getElem?_cons_zero, Option.some.injEq] at hn
      subst hn
      exact .all _ _ _ _ 0 _ _ _ rfl hr (.rep _ _ i _ _ hi hy)
    | 1, hn =>
      simp only [List.getElem?_cons_zero, List.getElem?_cons_succ, Option.some.injEq] at hn
      subst hn
      exact .all _ _ _ _ 1 _ _ _ rfl hr (.rep _ _ i _ _ hi hy)
    | 2, hn =>
      simp only [List.getElem?_cons_zero, List.getElem?_cons_succ, Option.some.injEq] at hn
      subst hn
      exact .all _ _ _ _ 2 _ _ _ rfl hr (.rep _ _ i _ _ hi hy)
    | n + 3, hn => simp at hn
  exact hocc x y y' (hocc' r rn y hr hy) (hocc' r' rn' y' hr' hy')

/-- The statement about `exSig` with `r1 = 1`, `r2 = 2`, thus `δ1 = 1`, `δ2 = 2`, `A1 = 1·3 + 2·2 = 0` and
`A2 = 1·2 + 1 = 3`: the answers to the challenges 0 and 1 for the commitment with all randomizers 0. -/
def exBBS : BBS (ZMod 7) := ⟨exPairing, exPk, some exSig, [2, 3, 0, 1], 4, 5, 6, 7⟩

def exBBSPre : Val (ZMod 7) := .dict [("A1", .pt ⟨exPairing.G1, 0⟩), ("A2", .pt ⟨exPairing.G1, 3⟩)]

example : ∃ t1, digestPrecommitment exNames (Tree.freshVerifier (exBBS.stmt 1 false)) exBBSPre = .ok t1 ∧
    verifyResponse exNames t1 (.list [.pt ⟨exPairing.G1, 0⟩, .pt ⟨exPairing.G1, 0⟩, .pt ⟨exPairing.GT, 0⟩]) 0
      (.list [.list [.int 0, .int 0], .list [.int 0, .int 0, .int 0],
        .list [.int 0, .int 0, .int 0, .int 0, .int 0, .int 0]]) = .ok true ∧
    verifyResponse exNames t1 (.list [.pt ⟨exPairing.G1, 0⟩, .pt ⟨exPairing.G1, 0⟩, .pt ⟨exPairing.GT, 0⟩]) 1
      (.list [.list [.int 1, .int 2], .list [.int 1, .int 2, .int 1],
        .list [.int 1, .int 1, .int 1, .int 2, .int 4, .int 6]]) = .ok true :=
  ⟨_, rfl, by decide, by decide⟩

/-- Independent generators: `exPk3` with its second and third generator; a true statement is obtained as in
the example for C44. -/
example : ∀ g1 g2, exPk3.generators[1]? = some g1 → exPk3.generators[2]? = some g2 →
    ∀ a b : Int, a • g1.val + b • g2.val = 0 → (exPairing3.order : Int) ∣ a := by
  intro g1 g2 h1 h2 a b h
  simp only [exPk3, List.getElem?_cons_zero, List.getElem?_cons_succ, Option.some.injEq] at h1 h2
  subst h1; subst h2
  have h3 := congrArg Prod.fst h
  simp only [Prod.fst_add, Prod.smul_fst, smul_zero, add_zero, Prod.fst_zero] at h3
  rw [zsmul_eq_mul] at h3
  have h4 : ((a * 3 : Int) : ZMod 7) = 0 := by push_cast; exact h3
  have h5 := (ZMod.intCast_zmod_eq_zero_iff_dvd _ 7).mp h4
  show (7 : Int) ∣ a
  omega

/-! ### C53 -/

/-- A run of `prove()` on one extended statement calls its `precommit()`. -/
private theorem prove_precommits {env : Env E} {x : Ext E} {d : Dict Int} {msg : String} {w : World} {out}
    (h : prove (LeafProver E) env (.leaf (.ext x)) d msg w = .ok out) :
    ∃ w1 v w2, w1.store = updateSecretValues w.store d ∧ x.spec.precommit w1 = .ok (v, w2) := by
  unfold prove at h
  have hev : (PTree.getProver (Tree.leaf (Leaf.ext x)) d : PM (Option (StmtProver E) × Stmt E)) w =
      .ok ((some (.leaf (.ext ⟨x, d, none⟩)), .leaf (.ext x)), { w with store := updateSecretValues w.store d }) := rfl
  rw [pm_bind_eq hev] at h
  simp only at h
  obtain ⟨⟨nizk, p'⟩, w2, h1, _⟩ := pm_bind.mp h
  unfold PTree.getNizkProof at h1
  obtain ⟨⟨v, p1⟩, w3, h2, _⟩ := pm_bind.mp h1
  simp only [PTree.precommit, ProverOps.precommit] at h2
  obtain ⟨_, _, h3, _⟩ := pm_bind.mp h2
  obtain ⟨_, _, h4, _⟩ := pm_bind.mp h3
  unfold ExtProver.precommit at h4
  obtain ⟨v1, w4, h5, _⟩ := pm_bind.mp h4
  exact ⟨_, v1, w4, rfl, h5⟩

/-- **C53** No proof for a signature on an empty list of messages can be made, although such signatures exist and
are accepted by `verify_signature()`: whatever the signature, dictionary, message, heap and randomness, `prove()`
raises. -/
theorem C53_no_messages (env : Env E) (s : BBS E) (gen : E) (sim : Bool) (hv : s.vars.length ≤ 2) (d : Dict Int)
    (msg : String) (w : World) : ∃ e, prove (LeafProver E) env (s.stmt gen sim) d msg w = .error e := by
  cases hp : prove (LeafProver E) env (s.stmt gen sim) d msg w with
  | error e => exact ⟨e, rfl⟩
  | ok out =>
    exfalso
    obtain ⟨w1, v, w2, _, h⟩ := prove_precommits hp
    have h' : s.precommit w1 = .ok (v, w2) := h
    unfold BBS.precommit at h'
    cases hs : s.signature with
    | none => simp only [hs] at h'; exact (raise_ne.mp h').elim
    | some sig =>
      simp only [hs] at h'
      obtain ⟨b0, _, h'⟩ := pm_liftE_bind_iff.mp h'
      obtain ⟨_, _, _, h'⟩ := pm_bind.mp h'
      obtain ⟨_, _, _, h'⟩ := pm_bind.mp h'
      rw [pm_getStore_bind, pm_setStore_bind] at h'
      obtain ⟨_, _, h'⟩ := pm_liftE_bind_iff.mp h'
      obtain ⟨b2, h2, _⟩ := pm_liftE_bind_iff.mp h'
      rw [listAt_ok] at h2
      have := (List.getElem?_eq_some_iff.mp h2).1
      unfold BBS.bases at this
      simp only [List.length_take] at this
      omega

/-- A signature on no messages: `3⁻¹ (1 + 2·3) = 0` for `γ + e = 3`, `s = 2`; it is accepted, and there is a statement
object about it. -/
example : (⟨⟨exPairing.G1, 0⟩, 1, 2⟩ : Signature (ZMod 7)).verify exPairing exPk [] = .ok true ∧
    ∃ σ1 s, mkBBS exPairing exNames [] exPk (some ⟨⟨exPairing.G1, 0⟩, 1, 2⟩) false 2 = .ok (σ1, s) ∧
      s.vars.length ≤ 2 := ⟨by decide, _, _, rfl, by decide⟩

/-- **C53** A statement made without a signature (as the verifier does) cannot be proved, even if the values for `e`,
`s` and all messages are passed to `prove()`. -/
theorem C53_needs_signature (env : Env E) (s : BBS E) (gen : E) (sim : Bool) (hs : s.signature = none) (d : Dict Int)
    (msg : String) (w : World) : ∃ e, prove (LeafProver E) env (s.stmt gen sim) d msg w = .error e := by
  cases hp : prove (LeafProver E) env (s.stmt gen sim) d msg w with
  | error e => exact ⟨e, rfl⟩
  | ok out =>
    exfalso
    obtain ⟨w1, v, w2, _, h⟩ := prove_precommits hp
    have h' : s.precommit w1 = .ok (v, w2) := h
    unfold BBS.precommit at h'
    simp only [hs] at h'
    exact (raise_ne.mp h').elim

example : ∃ σ1 s, mkBBS exPairing exMsgs [0, 1] exPk none false 2 = .ok (σ1, s) ∧ s.signature = none :=
  ⟨_, _, rfl, rfl⟩

end Zksk.Props
