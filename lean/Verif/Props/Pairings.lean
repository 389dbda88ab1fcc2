import Verif.Lemmas.Pairings
import Mathlib.Data.ZMod.Basic

/-!
# The wrappers of `bplib` are additive groups with a pairing (C82, C83)

`Made lib none b h`: at some point of a program that uses the classes of `zksk/pairings.py` in any way,
`b = BilinearGroupPair()` was called, and `h` are the objects later, after any further calls on any pairs, among
them calls that raised.  `lib` is what `BpGroup()` returns; `lib.Works` says what is assumed of it: powers of elements
of the target group are *not* assumed to be right for the exponent zero.
-/

namespace Zksk.Props

open Bp

variable {A B T : Type} [AddCommGroup A] [AddCommGroup B] [CommGroup T]

/-- **C82**, points: in all three groups `+` and `*` are sum and multiple, for all integers, negative ones and zero
included; `-` is the difference in `G1` and `G2`; `==` is equality of elements; points of different groups
cannot be added.  (In `GT` subtraction raises `TypeError`.) -/
theorem C82_point_operations [DecidableEq A] [DecidableEq B] [DecidableEq T] (lib : BpGroup A B T) (hl : lib.Works)
    (p q : Point A B T) :
    (p.pt.kind = q.pt.kind →
      (∃ r, p.add q = .ok r ∧ IsPoint r p.bp p.pt.kind (p.pt.val + q.pt.val)) ∧
      (p.eq q = true ↔ p.pt.val = q.pt.val) ∧
      (p.pt.kind ≠ .tgt → ∃ r, p.sub lib.pow q = .ok r ∧ IsPoint r p.bp p.pt.kind (p.pt.val - q.pt.val))) ∧
    (∀ n : Int, IsPoint (p.mul lib.pow n) p.bp p.pt.kind (n • p.pt.val)) ∧
    (p.pt.kind ≠ q.pt.kind → p.add q = .error .foreign ∧ p.eq q = false) ∧
    (p.pt.kind = .tgt → p.sub lib.pow q = .error .typeError) := by
  refine ⟨fun hk => ⟨val_add ⟨rfl, rfl, rfl⟩ ⟨rfl, hk.symm, rfl⟩, ?_, fun ht => ?_⟩, fun n => val_mul hl ⟨rfl, rfl, rfl⟩ n,
    fun hk => ⟨add_other hk, ?_⟩, fun ht => ?_⟩
  · obtain ⟨p, pb⟩ := p
    obtain ⟨q, qb⟩ := q
    cases p <;> cases q <;> simp only [Elem.kind, reduceCtorEq] at hk <;> simp [Point.eq, Elem.val]
  · obtain ⟨r, e, i⟩ := val_add (p := p) ⟨rfl, rfl, rfl⟩ (val_mul hl (p := q) ⟨rfl, hk.symm, rfl⟩ (-1))
    refine ⟨r, ?_, by simpa [sub_eq_add_neg] using i⟩
    rw [← e]
    obtain ⟨p, pb⟩ := p
    cases p with
    | g1 _ => rfl
    | g2 _ => rfl
    | gt _ => exact absurd rfl ht
  · simp only [Point.eq, decide_eq_false_iff_not]
    exact fun h => hk (by rw [h])
  · obtain ⟨p, pb⟩ := p
    cases p with
    | g1 _ => cases ht
    | g2 _ => cases ht
    | gt _ => rfl

/-- **C82**, groups: at any time, whatever has been called before, `order()`, `generator()` and `infinite()` of the three
groups return the order, the generator (that of `GT` is the pairing of the others) and zero; `sum(points)` and
`wsum(weights, points)` are the sum and the weighted sum, the longer list being cut; they raise if one of the
points used is in another group. -/
theorem C82_group_operations (lib : BpGroup A B T) (hl : lib.Works) {b : Nat} {h : Heap A B T}
    (hm : Made lib none b h) (k : Kind) :
    (Bp.order b k h).1 = .ok lib.order ∧
    (∃ r, (generator b k h).1 = .ok r ∧ IsPoint r b k (lib.gen k)) ∧
    (∃ r, (infinite b k h).1 = .ok r ∧ IsPoint r b k 0) ∧
    (∀ ps : List (Point A B T), (∀ p ∈ ps, p.pt.kind = k) →
      ∃ r, (Bp.sum b k ps h).1 = .ok r ∧ IsPoint r b k (ps.map (·.pt.val)).sum) ∧
    (∀ ps : List (Point A B T), (∃ p ∈ ps, p.pt.kind ≠ k) → (Bp.sum b k ps h).1 = .error .foreign) ∧
    (∀ (ws : List Int) (ps : List (Point A B T)), (∀ p ∈ ps.take ws.length, p.pt.kind = k) →
      ∃ r, (Bp.wsum lib.pow b k ws ps h).1 = .ok r ∧
        IsPoint r b k (List.zipWith (fun w (p : Point A B T) => w • p.pt.val) ws ps).sum) ∧
    (∀ (ws : List Int) (ps : List (Point A B T)), (∃ p ∈ ps.take ws.length, p.pt.kind ≠ k) →
      (Bp.wsum lib.pow b k ws ps h).1 = .error .foreign) := by
  obtain ⟨hg, hb⟩ := made_good hm
  obtain ⟨h1, e1, -⟩ := generator_alive hg hb k
  obtain ⟨h2, e2, -⟩ := infinite_alive hg hb k
  refine ⟨?_, ⟨_, by rw [e1], val_genPt lib b k⟩, ⟨_, by rw [e2], val_infPt hl b k⟩, fun ps hk => ?_, fun ps hk => ?_,
    fun ws ps hk => ?_, fun ws ps hk => ?_⟩
  · simp only [Bp.order, hm_bind, bpgp_alive hb]; rfl
  · obtain ⟨r, e, i⟩ := val_sumGo ps (val_infPt hl b k) hk
    exact ⟨r, by simp only [Bp.sum, hm_bind, e2, HM.lift, e], by simpa using i⟩
  · simp only [Bp.sum, hm_bind, e2, HM.lift, sumGo_other ps (val_infPt hl b k).kind hk]
  · obtain ⟨r, e, i⟩ := val_wsumGo hl ws ps (val_infPt hl b k) hk
    exact ⟨r, by simp only [Bp.wsum, hm_bind, e2, HM.lift, e], by simpa using i⟩
  · simp only [Bp.wsum, hm_bind, e2, HM.lift, wsumGo_other ws ps (val_infPt hl b k).kind hk]

/-- **C82**, pairing: at any time, for a point of `G1` of the pair and a point of `G2` (of this or another pair),
`p.pair(q)` returns a point of `GT`, and `(m * p).pair(n * q) == (m * n) * p.pair(q)` for all integers, zero
included; the pairing respects sums on both sides. -/
theorem C82_pairing (lib : BpGroup A B T) (hl : lib.Works) {b : Nat} {h : Heap A B T} (hm : Made lib none b h)
    (p p' q q' : Point A B T) (hp : p.bp = b) (hp1 : p.pt.kind = .one) (hp' : p'.pt.kind = .one)
    (hq : q.pt.kind = .two) (hq' : q'.pt.kind = .two) :
    ∃ r, (p.pair q h).1 = .ok r ∧ r.bp = b ∧ r.pt.kind = .tgt ∧
      (∀ m n : Int, ((p.mul lib.pow m).pair (q.mul lib.pow n) h).1 = .ok (r.mul lib.pow (m * n))) ∧
      (p'.bp = b → ∃ s r' t, p.add p' = .ok s ∧ (p'.pair q h).1 = .ok r' ∧ r.add r' = .ok t ∧ (s.pair q h).1 = .ok t) ∧
      (∃ s r' t, q.add q' = .ok s ∧ (p.pair q' h).1 = .ok r' ∧ r.add r' = .ok t ∧ (p.pair s h).1 = .ok t) := by
  obtain ⟨hg, hb⟩ := made_good hm
  obtain ⟨p, pb⟩ := p
  obtain ⟨p', pb'⟩ := p'
  obtain ⟨q, qb⟩ := q
  obtain ⟨q', qb'⟩ := q'
  simp only at hp
  subst hp
  cases p <;> simp only [Elem.kind, reduceCtorEq] at hp1
  cases p' <;> simp only [Elem.kind, reduceCtorEq] at hp'
  cases q <;> simp only [Elem.kind, reduceCtorEq] at hq
  cases q' <;> simp only [Elem.kind, reduceCtorEq] at hq'
  rename_i a a' c c'
  have hpair : ∀ (x : A) (y : B) (yb : Nat), ((⟨.g1 x, pb⟩ : Point A B T).pair ⟨.g2 y, yb⟩ h).1 =
      .ok ⟨.gt (lib.pair x y), pb⟩ := by
    intro x y yb
    simp only [Point.pair, hm_bind, bpgp_alive hb]
    rfl
  refine ⟨_, hpair a c qb, rfl, rfl, fun m n => ?_, ?_, ?_⟩
  · have hmul : (⟨.gt (lib.pair a c), pb⟩ : Point A B T).mul lib.pow (m * n) =
        ⟨.gt (lib.pair a c ^ (m * n)), pb⟩ := by
      simp only [Point.mul]
      split
      · rename_i h0; simp [h0]
      · rename_i h0; rw [hl.pow _ _ h0]
    rw [hmul, ← pair_mul lib hl]
    exact hpair _ _ _
  · intro hb'
    simp only at hb'
    subst hb'
    exact ⟨_, _, _, rfl, hpair a' c qb, rfl, by rw [hpair]; simp only [hl.pair_left]⟩
  · exact ⟨_, _, _, rfl, hpair a c' qb', rfl, by rw [hpair]; simp only [hl.pair_right]⟩

/-- **C82**, link with the rest of the model: on the points of one pair the wrappers do what `Pt.add`, `Pt.smul`,
`Pt.sub`, `Pairing.pair`, `Grp.inf` and `Grp.wsum` say, with the same exceptions, whatever has been called before.  (Of
subtraction in `GT` the rest of the model says too much; the library never uses it.) -/
theorem C82_abstract_model (lib : BpGroup A B T) (hl : lib.Works) {b : Nat} {h : Heap A B T}
    (hm : Made lib none b h) (p q : Point A B T) (hp : p.bp = b) (hq : q.bp = b) :
    (p.add q).map (abstractPoint lib) = (abstractPoint lib p).add (abstractPoint lib q) ∧
    (∀ n, abstractPoint lib (p.mul lib.pow n) = Pt.smul n (abstractPoint lib p)) ∧
    (p.pt.kind ≠ .tgt →
      (p.sub lib.pow q).map (abstractPoint lib) = (abstractPoint lib p).sub (abstractPoint lib q)) ∧
    ((p.pair q h).1).map (abstractPoint lib) =
      (abstractPairing lib hl b).pair (abstractPoint lib p) (abstractPoint lib q) ∧
    ((abstractPairing lib hl b).G1 = abstractGroup lib b .one ∧ (abstractPairing lib hl b).G2 = abstractGroup lib b .two ∧
      (abstractPairing lib hl b).GT = abstractGroup lib b .tgt) ∧
    (∀ k, ((infinite b k h).1).map (abstractPoint lib) = .ok (abstractGroup lib b k).inf) ∧
    (∀ k (ws : List Int) (ps : List (Point A B T)), (∀ p ∈ ps, p.bp = b) →
      ((Bp.wsum lib.pow b k ws ps h).1).map (abstractPoint lib) =
        (abstractGroup lib b k).wsum (ws.map .int) (ps.map (abstractPoint lib))) := by
  obtain ⟨hg, hb⟩ := made_good hm
  refine ⟨abstract_add lib p q (hp.trans hq.symm), abstract_mul lib hl p, fun ht => ?_, ?_, ⟨rfl, rfl, rfl⟩, fun k => ?_,
    fun k ws ps hps => ?_⟩
  · have h1 := abstract_add lib p (q.mul lib.pow (-1)) (by rw [mul_bp, hp, hq])
    rw [abstract_mul lib hl] at h1
    rw [Pt.sub, ← h1]
    obtain ⟨p, pb⟩ := p
    cases p with
    | g1 _ => rfl
    | g2 _ => rfl
    | gt _ => exact absurd rfl ht
  · obtain ⟨p, pb⟩ := p
    obtain ⟨q, qb⟩ := q
    simp only at hp hq
    subst hp hq
    cases p with
    | g1 a =>
      cases q with
      | g1 c =>
        simp only [Point.pair, hm_bind, bpgp_alive hb, HM.fail, Pairing.pair, abstractPoint, Elem.kind, abstractGroup,
          Pairing.G1, Pairing.G2, abstractPairing, if_true, Except.map, Grp.mk.injEq]
        rw [if_neg (by omega)]
      | g2 c =>
        simp only [Point.pair, hm_bind, bpgp_alive hb, Pairing.pair, abstractPoint, Elem.kind, abstractGroup,
          Pairing.G1, Pairing.G2, Pairing.GT, abstractPairing, if_true, Except.map, hm_pure, Elem.val,
          AddMonoidHom.mk'_apply]
      | gt c =>
        simp only [Point.pair, hm_bind, bpgp_alive hb, HM.fail, Pairing.pair, abstractPoint, Elem.kind, abstractGroup,
          Pairing.G1, Pairing.G2, abstractPairing, if_true, Except.map, Grp.mk.injEq]
        rw [if_neg (by omega)]
    | g2 a =>
      simp only [Point.pair, HM.fail, Pairing.pair, abstractPoint, Elem.kind, abstractGroup,
        Pairing.G1, abstractPairing, Except.map, Grp.mk.injEq]
      rw [if_neg (by omega)]
    | gt a =>
      simp only [Point.pair, HM.fail, Pairing.pair, abstractPoint, Elem.kind, abstractGroup,
        Pairing.G1, abstractPairing, Except.map, Grp.mk.injEq]
      rw [if_neg (by omega)]
  · obtain ⟨h2, e2, -⟩ := infinite_alive hg hb k
    simp only [e2, Except.map, abstract_of lib (val_infPt hl b k)]
    rfl
  · obtain ⟨h2, e2, -⟩ := infinite_alive hg hb k
    have h1 := abstract_wsumGo lib hl ws ps _ (val_infPt hl b k).pair hps
    simp only [Bp.wsum, hm_bind, e2, HM.lift]
    rw [h1, abstract_of lib (val_infPt hl b k)]
    have : (abstractGroup lib b k).strict = false := by cases k <;> rfl
    simp only [Grp.wsum, this, Bool.false_and, Bool.false_eq_true, if_false]
    rfl

/-- **C83** is false: a pair made of a given group of `bplib` cannot be used.  Whatever is called before and after, each
method of its groups, and pairing its points, raises `AttributeError`. -/
theorem C83_violated (lib g : BpGroup A B T) {b : Nat} {h : Heap A B T} (hm : Made lib (some g) b h) (k : Kind) :
    (Bp.order b k h).1 = .error .attributeError ∧
    (generator b k h).1 = .error .attributeError ∧
    (infinite b k h).1 = .error .attributeError ∧
    (∀ ps, (Bp.sum b k ps h).1 = .error .attributeError) ∧
    (∀ pow ws ps, (Bp.wsum pow b k ws ps h).1 = .error .attributeError) ∧
    (∀ s, (hashToPoint b k s h).1 = .error .attributeError) ∧
    (∀ p q : Point A B T, p.bp = b → (p.pair q h).1 = .error .attributeError) := by
  obtain ⟨hg, hb⟩ := made_good hm
  have hd : ∀ g, status h b ≠ some (some g) := by
    intro g' hc
    rw [hb] at hc
    cases hc
  refine ⟨?_, ?_, ?_, fun ps => ?_, fun pow ws ps => ?_, fun s => ?_, fun p q hp => ?_⟩
  · simp only [Bp.order, hm_bind, bpgp_dead hd]
  · rw [generator_dead hg hd]
  · rw [infinite_dead hg hd]
  · simp only [Bp.sum, hm_bind, infinite_dead hg hd]
  · simp only [Bp.wsum, hm_bind, infinite_dead hg hd]
  · cases k <;> simp only [hashToPoint, hm_bind, bpgp_dead hd, HM.fail]
  · subst hp
    unfold Point.pair
    cases p.pt with
    | g1 a => simp only [hm_bind, bpgp_dead hd]
    | g2 a => rfl
    | gt a => rfl

/-- **C83**, the part that holds: without argument the methods of the groups use the group `BpGroup()`.  Missing: a given
group, see `C83_violated`. -/
theorem C83_partial (lib : BpGroup A B T) {b : Nat} {h : Heap A B T} (hm : Made lib none b h) (k : Kind) :
    (Bp.order b k h).1 = .ok lib.order ∧
    (∃ r, (generator b k h).1 = .ok r ∧ IsPoint r b k (lib.gen k)) ∧
    (∀ s, (hashToPoint b .one s h).1 = .ok ⟨.g1 (lib.hashG1 s), b⟩) := by
  obtain ⟨hg, hb⟩ := made_good hm
  obtain ⟨h1, e1, -⟩ := generator_alive hg hb k
  refine ⟨?_, ⟨_, by rw [e1], val_genPt lib b k⟩, fun s => ?_⟩
  · simp only [Bp.order, hm_bind, bpgp_alive hb]; rfl
  · simp only [hashToPoint, hm_bind, bpgp_alive hb]; rfl

namespace PairingExample

/-- A library of order 7 whose power function is wrong for zero. -/
def lib : BpGroup (ZMod 7) (ZMod 7) (Multiplicative (ZMod 7)) where
  order := 7
  gen1 := 1
  gen2 := 1
  inf1 := 0
  inf2 := 0
  one := 1
  pair a b := Multiplicative.ofAdd (a * b)
  pow t n := if n = 0 then Multiplicative.ofAdd 3 else t ^ n
  hashG1 s := s.length
  nid := 1

theorem works : lib.Works where
  inf1 := rfl
  inf2 := rfl
  one := rfl
  pair_left a a' b := congrArg Multiplicative.ofAdd (add_mul a a' b)
  pair_right a b b' := congrArg Multiplicative.ofAdd (mul_add a b b')
  pow _ _ hn := if_neg hn

/-- Two pairs: the second without argument; some calls come before and after. -/
def calls1 : List (Call (ZMod 7) (ZMod 7) (Multiplicative (ZMod 7))) := [.mk (some lib), .generator 0 .one]
/-- Further calls, one of which raises. -/
def calls2 : List (Call (ZMod 7) (ZMod 7) (Multiplicative (ZMod 7))) :=
  [.infinite 1 .tgt, .sum 1 .one [⟨.gt 1, 1⟩], .mk none]

example : Made lib none 1 (after lib (mkPair lib none (after lib [] calls1)).2 calls2) := ⟨calls1, calls2, rfl, rfl⟩

example : Made lib (some lib) 0 (after lib [] [.mk (some lib)]) := ⟨[], [], rfl, rfl⟩

/-- A weighted sum in `GT` with a weight zero, after these calls. -/
example : ((Bp.wsum lib.pow 1 .tgt [2, 0, 5] [⟨.gt (Multiplicative.ofAdd 3), 1⟩, ⟨.gt (Multiplicative.ofAdd 2), 1⟩]
    (after lib (mkPair lib none (after lib [] calls1)).2 calls2)).1) =
    .ok ⟨.gt (Multiplicative.ofAdd 6), 1⟩ := by rfl

/-- `C82_pairing` applies: `G1` and `G2` points of pair 1. -/
example : ∃ r, (((⟨.g1 2, 1⟩ : Point (ZMod 7) (ZMod 7) (Multiplicative (ZMod 7))).pair ⟨.g2 3, 1⟩
    (after lib (mkPair lib none (after lib [] calls1)).2 calls2)).1) = .ok r ∧ r.bp = 1 :=
  have ⟨r, h1, h2, _⟩ := C82_pairing lib works (b := 1) ⟨calls1, calls2, rfl, rfl⟩ ⟨.g1 2, 1⟩ ⟨.g1 2, 1⟩ ⟨.g2 3, 1⟩ ⟨.g2 3, 1⟩
    rfl rfl rfl rfl rfl
  ⟨r, h1, h2⟩

end PairingExample

end Zksk.Props
