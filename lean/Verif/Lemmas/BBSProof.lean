import Verif.Lemmas.BBS

/-! Lemmas about proofs of BBS+ signatures. -/

set_option linter.unusedSectionVars false

namespace Zksk.BBS

open Spec

variable {E : Type} [AddCommGroup E] [DecidableEq E]

theorem zip_pairs (P : Pairing E) (h : E) (f : Sec → Int) : ∀ (gs : List (Pt E)) (vm : List Sec) (n : Nat),
    vm.length ≤ n → (List.zipWith (fun x (b : Pt E) => f x • b.val) vm
      ((gs.map fun g => (⟨P.GT, P.e g.val h⟩ : Pt E)).take n)).sum = P.e (lin (vm.map f) gs) h
  | [], vm, n, _ => by simp [lin]
  | g :: gs, [], n, _ => by simp [lin]
  | g :: gs, x :: vm, n, hn => by
    cases n with
    | zero => simp at hn
    | succ n =>
      have ih := zip_pairs P h f gs vm n (by simpa using hn)
      simp only [List.map_cons, List.take_succ_cons, List.zipWith_cons_cons, List.sum_cons, lin] at ih ⊢
      rw [ih]
      simp

/-- The three conjuncts. -/
def parts (P : Pairing E) (pk : PublicKey E) (σ : Store) (s : BBS E) (a1 a2 g0 g1 g2 : Pt E) (gs : List (Pt E))
    (ve vs : Sec) (vm : List Sec) : List (Core E) :=
  [.leaf ⟨a1, [g1, g2], [s.r1, s.r2], knownValues σ [s.r1, s.r2] [], false⟩,
   .leaf ⟨⟨P.G1, 0⟩, [g1, g2, Pt.smul (-1) a1], [s.delta1, s.delta2, ve],
    knownValues σ [s.delta1, s.delta2, ve] [], false⟩,
   .leaf ⟨⟨P.GT, P.e a2.val pk.w.val + (-1 : Int) • P.e g0.val pk.h0.val⟩,
    ⟨P.GT, (-1 : Int) • P.e a2.val pk.h0.val⟩ :: ⟨P.GT, P.e g2.val pk.w.val⟩ :: ⟨P.GT, P.e g2.val pk.h0.val⟩ ::
      ⟨P.GT, P.e g1.val pk.h0.val⟩ ::
      ((g2 :: gs).map fun g => (⟨P.GT, P.e g.val pk.h0.val⟩ : Pt E)).take vm.length,
    ve :: s.r1 :: s.delta1 :: vs :: vm, knownValues σ (ve :: s.r1 :: s.delta1 :: vs :: vm) [], false⟩]

theorem bases_split {P : Pairing E} {s : BBS E} (hk : GoodKey P s.pk) {b0 b1 b2 : Pt E}
    (h0 : s.bases[0]? = some b0) (h1 : s.bases[1]? = some b1) (h2 : s.bases[2]? = some b2) :
    (∃ gs, s.pk.generators = b0 :: b1 :: b2 :: gs) ∧
    (∃ ve vs vm, s.vars = ve :: vs :: vm ∧ 1 ≤ vm.length) ∧
    b0.grp = P.G1 ∧ b1.grp = P.G1 ∧ b2.grp = P.G1 := by
  unfold BBS.bases at h0 h1 h2
  have l2 := (List.getElem?_eq_some_iff.mp h2).1
  simp only [List.length_take] at l2
  rw [List.getElem?_take_of_lt (by omega)] at h0 h1 h2
  have m0 := List.mem_of_getElem? h0
  have m1 := List.mem_of_getElem? h1
  have m2 := List.mem_of_getElem? h2
  refine ⟨?_, ?_, hk.g1 _ m0, hk.g1 _ m1, hk.g1 _ m2⟩
  · match hg : s.pk.generators with
    | [] => simp [hg] at l2
    | [_] => simp [hg] at l2
    | [_, _] => simp [hg] at l2
    | c0 :: c1 :: c2 :: gs =>
      simp only [hg, List.getElem?_cons_zero, List.getElem?_cons_succ, Option.some.injEq] at h0 h1 h2
      subst h0; subst h1; subst h2
      exact ⟨gs, rfl⟩
  · match hv : s.vars with
    | [] => simp [hv] at l2
    | [_] => simp [hv] at l2
    | [_, _] => simp [hv] at l2
    | ve :: vs :: vm :: vr => exact ⟨ve, vs, vm :: vr, rfl, by simp⟩

theorem construct_inv {P : Pairing E} {s : BBS E} (hP : s.P = P) (hk : GoodKey P s.pk) {σ : Store} {v : Val E}
    {k : Core E} (h : s.construct σ v = .ok k) :
    ∃ a1 a2 g0 g1 g2 gs ve vs vm, v.lookup "A1" = .ok (.pt a1) ∧ v.lookup "A2" = .ok (.pt a2) ∧
      s.pk.generators = g0 :: g1 :: g2 :: gs ∧ s.vars = ve :: vs :: vm ∧ 1 ≤ vm.length ∧
      vm.length ≤ gs.length + 1 ∧ a1.grp = P.G1 ∧ a2.grp = P.G1 ∧
      k = .and false (parts P s.pk σ s a1 a2 g0 g1 g2 gs ve vs vm) := by
  unfold BBS.construct at h
  obtain ⟨x1, hx1, h⟩ := bind_ok_iff.mp h
  obtain ⟨a1, ha1, h⟩ := bind_ok_iff.mp h
  obtain ⟨x2, hx2, h⟩ := bind_ok_iff.mp h
  obtain ⟨a2, ha2, h⟩ := bind_ok_iff.mp h
  obtain ⟨g0, hg0, h⟩ := bind_ok_iff.mp h
  obtain ⟨g1, hg1, h⟩ := bind_ok_iff.mp h
  obtain ⟨g2, hg2, h⟩ := bind_ok_iff.mp h
  obtain ⟨dl1, hd1, h⟩ := bind_ok_iff.mp h
  obtain ⟨ve', hve, h⟩ := bind_ok_iff.mp h
  obtain ⟨dl2, hd2, h⟩ := bind_ok_iff.mp h
  obtain ⟨aw, haw, h⟩ := bind_ok_iff.mp h
  obtain ⟨p0, hp0, h⟩ := bind_ok_iff.mp h
  obtain ⟨lhs, hlhs, h⟩ := bind_ok_iff.mp h
  obtain ⟨ah, hah, h⟩ := bind_ok_iff.mp h
  obtain ⟨gw, hgw, h⟩ := bind_ok_iff.mp h
  obtain ⟨p2, hp2, h⟩ := bind_ok_iff.mp h
  obtain ⟨dl3, hd3, h⟩ := bind_ok_iff.mp h
  rw [listAt_ok] at hg0 hg1 hg2 hve hp0 hp2
  obtain ⟨⟨gs, hg⟩, ⟨ve, vs, vm, hv, hvm⟩, k0, k1, k2⟩ := bases_split hk hg0 hg1 hg2
  obtain ⟨rfl, _⟩ := mkAnd_ok h
  obtain ⟨rfl, _, _⟩ := mkDLRep_ok hd1
  obtain ⟨rfl, _, hgr2⟩ := mkDLRep_ok hd2
  obtain ⟨rfl, hlen, _, _⟩ := repOf_ok hd3
  rw [hP] at haw hah hgw
  obtain ⟨ga2, gw2, rfl⟩ := pair_ok haw
  obtain ⟨_, gh2, rfl⟩ := pair_ok hah
  obtain ⟨_, _, rfl⟩ := pair_ok hgw
  have hx1' : x1 = .pt a1 := by
    cases x1 <;> simp only [Val.asPt, Except.ok.injEq, reduceCtorEq] at ha1
    rw [ha1]
  have hx2' : x2 = .pt a2 := by
    cases x2 <;> simp only [Val.asPt, Except.ok.injEq, reduceCtorEq] at ha2
    rw [ha2]
  subst hx1'; subst hx2'
  have ga1 : a1.grp = P.G1 := by
    have := hgr2 g1 (by simp) (Pt.smul (-1) a1) (by simp)
    rw [← k1]; exact this.symm
  rw [hk.pairs, hg] at hp0 hp2
  simp only [List.map_cons, List.getElem?_cons_zero, List.getElem?_cons_succ, Option.some.injEq] at hp0 hp2
  subst hp0; subst hp2
  rw [hv] at hve
  simp only [List.getElem?_cons_zero, Option.some.injEq] at hve
  subst hve
  rw [pt_add_of (by rfl)] at hlhs
  injection hlhs with hlhs; subst hlhs
  have hb : s.bases.length = min (vm.length + 2) (gs.length + 3) := by
    unfold BBS.bases; rw [hv, hg]; simp
  have hl : vm.length ≤ gs.length + 1 := by
    rw [hk.pairs, hg, hb, hv] at hlen
    simp at hlen
    omega
  refine ⟨a1, a2, g0, g1, g2, gs, ve, vs, vm, hx1, hx2, hg, hv, hvm, hl, ga1, ga2, ?_⟩
  have hb' : s.bases.length = vm.length + 2 := by omega
  have e1 : (s.pk.genPairs.take s.bases.length).drop 1 = ⟨P.GT, P.e g1.val s.pk.h0.val⟩ ::
      ((g2 :: gs).map fun g => (⟨P.GT, P.e g.val s.pk.h0.val⟩ : Pt E)).take vm.length := by
    rw [hk.pairs, hg, hb']
    rfl
  rw [e1, hv]
  simp only [parts, Grp.inf, k0]
  rfl

/-- The other direction. -/
theorem construct_of {P : Pairing E} {s : BBS E} (hP : s.P = P) (hk : GoodKey P s.pk) {σ : Store} {v : Val E}
    {a1 a2 g0 g1 g2 : Pt E} {gs : List (Pt E)} {ve vs : Sec} {vm : List Sec}
    (h1 : v.lookup "A1" = .ok (.pt a1)) (h2 : v.lookup "A2" = .ok (.pt a2))
    (hg : s.pk.generators = g0 :: g1 :: g2 :: gs) (hv : s.vars = ve :: vs :: vm) (hvm : 1 ≤ vm.length)
    (hl : vm.length ≤ gs.length + 1) (ga1 : a1.grp = P.G1) (ga2 : a2.grp = P.G1) :
    s.construct σ v = .ok (.and false (parts P s.pk σ s a1 a2 g0 g1 g2 gs ve vs vm)) := by
  have hgr := hk.g1
  rw [hg] at hgr
  have k0 := hgr g0 (by simp)
  have k1 := hgr g1 (by simp)
  have k2 := hgr g2 (by simp)
  have hbases : s.bases = (g0 :: g1 :: g2 :: gs).take (vm.length + 2) := by
    unfold BBS.bases; rw [hg, hv]; rfl
  have hb : s.bases.length = vm.length + 2 := by rw [hbases]; simp; omega
  have b0 : listAt s.bases 0 = .ok g0 := by rw [listAt_ok, hbases]; simp
  have b1 : listAt s.bases 1 = .ok g1 := by rw [listAt_ok, hbases]; simp
  have b2 : listAt s.bases 2 = .ok g2 := by
    rw [listAt_ok, hbases, List.getElem?_take_of_lt (by omega)]; rfl
  have c0 : listAt s.vars 0 = .ok ve := by rw [listAt_ok, hv]; rfl
  have q0 : listAt s.pk.genPairs 0 = .ok ⟨P.GT, P.e g0.val s.pk.h0.val⟩ := by
    rw [listAt_ok, hk.pairs, hg]; rfl
  have q2 : listAt s.pk.genPairs 2 = .ok ⟨P.GT, P.e g2.val s.pk.h0.val⟩ := by
    rw [listAt_ok, hk.pairs, hg]; rfl
  have e1 : (s.pk.genPairs.take (vm.length + 2)).drop 1 = ⟨P.GT, P.e g1.val s.pk.h0.val⟩ ::
      ((g2 :: gs).map fun g => (⟨P.GT, P.e g.val s.pk.h0.val⟩ : Pt E)).take vm.length := by
    rw [hk.pairs, hg]
    rfl
  unfold BBS.construct
  simp only [h1, h2, bind_ok, Val.asPt, b0, b1, b2, c0, q0, q2, hP, hb, e1]
  rw [mkDLRep_of (g := P.G1) (by simp) (by simp [k1, k2]), pair_of ga2 hk.w, pair_of ga2 hk.h0, pair_of k2 hk.w]
  simp only [bind_ok]
  rw [mkDLRep_of (g := P.G1) (by simp) (by simp [k1, k2, Pt.smul, ga1]), pt_add_of (by rfl)]
  simp only [bind_ok]
  rw [repOf_of (g := P.GT)]
  · simp only [bind_ok, hv, mkAnd, parts, Grp.inf, k0]
    rfl
  · simp [hv, hl]
  · simp
  · simp only [List.cons_append, List.nil_append, List.mem_cons]
    rintro p (rfl | rfl | rfl | rfl | hp)
    · rfl
    · rfl
    · rfl
    · rfl
    · obtain ⟨g, _, rfl⟩ := List.mem_map.mp (List.mem_of_mem_take hp)
      rfl

theorem sum_three (P : Pairing E) (pk : PublicKey E) (f : Sec → Int) (a2 g1 g2 : Pt E) (gs : List (Pt E))
    (ve r1 d1 vs : Sec) (vm : List Sec) :
    (List.zipWith (fun x (b : Pt E) => f x • b.val) (ve :: r1 :: d1 :: vs :: vm)
      (⟨P.GT, (-1 : Int) • P.e a2.val pk.h0.val⟩ :: ⟨P.GT, P.e g2.val pk.w.val⟩ :: ⟨P.GT, P.e g2.val pk.h0.val⟩ ::
      ⟨P.GT, P.e g1.val pk.h0.val⟩ ::
      ((g2 :: gs).map fun g => (⟨P.GT, P.e g.val pk.h0.val⟩ : Pt E)).take vm.length)).sum =
    -(f ve • P.e a2.val pk.h0.val) + f r1 • P.e g2.val pk.w.val + f d1 • P.e g2.val pk.h0.val +
      f vs • P.e g1.val pk.h0.val + P.e (lin (vm.map f) (g2 :: gs)) pk.h0.val := by
  simp only [List.zipWith_cons_cons, List.sum_cons]
  rw [zip_pairs P pk.h0.val f (g2 :: gs) vm vm.length le_rfl]
  simp only [neg_smul, one_smul, smul_neg]
  abel

end Zksk.BBS
