import Verif.Lemmas.Scripts
import Verif.Lemmas.Known
import Verif.Props.Complete
import Verif.Examples

/-! # C100: the example scripts

Generators are points of the group whose order annihilates them; the random numbers are those of the initial world. -/

set_option linter.unusedSectionVars false

namespace Zksk.Props

open Spec

variable {E : Type} [AddCommGroup E] [DecidableEq E]

private theorem new_ok (s : Sec) (v : Option Int) (w : World) :
    newSecret s v w = .ok ((), { w with store := { w.store with value := fun y => if y = s then v else w.store.value y } }) :=
  rfl

private theorem rep1_ok (lhs : Pt E) (x : Sec) (g : Pt E) (b : Bool) (w : World) :
    scriptRep1 lhs x g b w = .ok (.leaf ⟨lhs, [g], [x], knownValues w.store [x] [], b⟩, w) := by
  unfold scriptRep1
  rw [pm_getStore_bind]
  simp only [newExpr, pm_liftE_bind, dlrepOf, mkDLRep]
  simp [pm_liftE_bind]
  rfl

private theorem rep2_ok (lhs : Pt E) (x : Sec) (g : Pt E) (y : Sec) (h : Pt E) (hh : h.grp = g.grp) (w : World) :
    scriptRep2 lhs x g y h w = .ok (.leaf ⟨lhs, [g, h], [x, y], knownValues w.store [x, y] [], false⟩, w) := by
  unfold scriptRep2
  rw [pm_getStore_bind]
  simp only [newExpr, pm_liftE_bind, dlrepOf, mkDLRep, addExpr]
  simp [pm_liftE_bind, hh]
  rfl

private theorem assert_ok (w : World) : pyAssert true w = .ok ((), w) := rfl

private theorem private_pair {σ : Store} {b b' : Bool} {us : List (Core E)} {s : DLRep E}
    (h : ∀ x ∈ secretsL us, ∀ y ∈ s.secretVars, σ.key x ≠ σ.key y) : OrsPrivate σ (.and b [.or b' us, .leaf s]) := by
  intro pre u post hat
  generalize hT : (Tree.and b [.or b' us, .leaf s] : Core E) = T at hat
  cases hat with
  | here => cases hT
  | down b ls t rs pre post u hat =>
    injection hT with _ hT
    match ls, hT with
    | [], hT =>
      simp only [List.nil_append, List.cons.injEq] at hT
      obtain ⟨rfl, rfl⟩ := hT
      cases hat with
      | here => simpa [secretsL, secrets] using h
    | [a], hT =>
      simp only [List.cons_append, List.nil_append, List.cons.injEq] at hT
      obtain ⟨_, rfl, _⟩ := hT
      cases hat
    | a :: c :: ls, hT => simp at hT

private theorem private_leaves {σ : Store} {b : Bool} {ss : List (DLRep E)} :
    OrsPrivate σ (.and b (ss.map fun s => .leaf s)) := by
  intro pre u post hat
  generalize hT : (Tree.and b (ss.map fun s => .leaf s) : Core E) = T at hat
  cases hat with
  | here => cases hT
  | down b ls t rs pre post u hat =>
    injection hT with _ hT
    have : t ∈ ss.map fun s => (.leaf s : Core E) := by rw [hT]; simp
    obtain ⟨s, _, rfl⟩ := List.mem_map.mp this
    cases hat

private theorem same_orders {σ : Store} {t : Core E} {G : Grp} (h : ∀ p ∈ terms t, p.2.grp = G) :
    SameOrders σ t := fun x b y c h1 h2 _ => by rw [h _ h1, h _ h2]

/-- **C100** `examples/two_level_proof.py` runs to its end, all assertions hold: in all groups, for all points and all
random numbers. -/
theorem C100_two_level (env : Env E) (G : Grp) (g0 g1 g2 : Pt E) (x0 x1 x2 : Sec) (w : World) (hord : G.order ≠ 0)
    (hg : ∀ p ∈ [g0, g1, g2], p.grp = G ∧ (G.order : Int) • p.val = 0) (hx : [x0, x1, x2].Nodup) :
    ∃ w', twoLevelScript env g0 g1 g2 x0 x1 x2 w = .ok ((), w') := by
  simp only [List.mem_cons, List.not_mem_nil, or_false, forall_eq_or_imp, forall_eq] at hg
  obtain ⟨⟨rfl, t0⟩, ⟨e1, t1⟩, e2, t2⟩ := hg
  simp only [List.nodup_cons, List.mem_cons, List.not_mem_nil, or_false, not_or, List.nodup_nil, and_true,
    not_false_eq_true] at hx
  obtain ⟨⟨n1, n2⟩, n3⟩ := hx
  unfold twoLevelScript
  rw [pm_bind_eq (new_ok _ _ _), pm_bind_eq (new_ok _ _ _), pm_bind_eq (new_ok _ _ _), pm_bind_eq (rep1_ok _ _ _ _ _),
    pm_bind_eq (rep1_ok _ _ _ _ _)]
  simp only [opOr, mkOr, List.length_cons, List.length_nil, Nat.reduceAdd, lt_self_iff_false, if_false, pm_liftE_bind]
  rw [pm_bind_eq (rep1_ok _ _ _ _ _)]
  simp only [opAnd, mkAnd, List.length_cons, List.length_nil, Nat.reduceAdd, lt_self_iff_false, if_false, pm_liftE_bind]
  generalize hσ : ({ name := _, value := _ } : Store) = σ
  have v0 : σ.value x0 = some 3 := by rw [← hσ]; simp [n1, n2]
  have v1 : σ.value x1 = some 40 := by rw [← hσ]; simp [n3]
  have v2 : σ.value x2 = some 50 := by rw [← hσ]; simp
  have hheap : ∀ b ts, heapFor σ [] (.and b ts : Core E) = σ := fun b ts => by cases σ; simp [heapFor]
  obtain ⟨t1, w', h, _⟩ := interact_complete env (w := ⟨σ, w.rng⟩) (d := []) (X := valueOf)
    (t := .and false [.or false [.leaf ⟨Pt.smul 3 g0, [g0], [x0], knownValues σ [x0] [], false⟩,
      .leaf ⟨Pt.smul 40 g1, [g1], [x1], knownValues σ [x1] [], false⟩],
      .leaf ⟨Pt.smul 50 g2, [g2], [x2], knownValues σ [x2] [], false⟩])
    (by simp [Solid, SolidL, Pt.smul, hord, e1, e2]) (by
      intro x b hm
      simp only [terms, termsL, List.zip_cons_cons, List.zip_nil_right, List.cons_append, List.nil_append, List.append_nil,
        List.mem_cons, Prod.mk.injEq, List.not_mem_nil, or_false] at hm
      rcases hm with ⟨_, rfl⟩ | ⟨_, rfl⟩ | ⟨_, rfl⟩
      · exact t0
      · rw [e1]; exact t1
      · rw [e2]; exact t2) trivial (by
      rw [hheap]
      refine .all _ fun t ht => ?_
      simp only [List.mem_cons, List.not_mem_nil, or_false] at ht
      rcases ht with rfl | rfl
      · refine .any _ ⟨_, List.mem_cons_self .., rfl⟩ fun t ht _ => ?_
        simp only [List.mem_cons, List.not_mem_nil, or_false] at ht
        rcases ht with rfl | rfl
        · exact satisfied_rep (by simp [Told]) rfl (by simp [v0]) (.rep _ _ (by simp [Pt.smul])
            (by simp [Pt.smul, valueOf, Store.key, v0]))
        · exact satisfied_rep (by simp [Told]) rfl (by simp [v1]) (.rep _ _ (by simp [Pt.smul])
            (by simp [Pt.smul, valueOf, Store.key, v1]))
      · exact satisfied_rep (by simp [Told]) rfl (by simp [v2]) (.rep _ _ (by simp [Pt.smul])
            (by simp [Pt.smul, valueOf, Store.key, v2]))) (by
      rw [hheap]
      refine .and _ _ (same_orders (G := g0.grp) ?_) (private_pair ?_) fun t ht => ?_
      · simp [terms, termsL, e1, e2]
      · simp [secretsL, secrets, Store.key, v0, v1, v2]
      · simp only [List.mem_cons, List.not_mem_nil, or_false] at ht
        rcases ht with rfl | rfl
        · refine .or _ _ (same_orders (G := g0.grp) (by simp [terms, termsL, e1])) fun t ht => ?_
          simp only [List.mem_cons, List.not_mem_nil, or_false] at ht
          rcases ht with rfl | rfl <;> exact .leaf _
        · exact .leaf _)
  rw [pm_bind_eq h]
  exact ⟨w', rfl⟩

example : ∃ w', twoLevelScript (Ex.env 3) (Ex.P 1) (Ex.P 2) (Ex.P 3) 0 1 2 ⟨Ex.σ0, fun n => n⟩ = .ok ((), w') :=
  C100_two_level _ Ex.G _ _ _ _ _ _ _ (by decide) (by decide) (by decide)

private theorem id_ok (σ : Store) (t : Core E) : ∃ id, Tree.proofId σ t = .ok id :=
  (Tree.proofId_isOk (σ := σ) (skel_core t)).imp fun _ h => h.choose_spec.1

/-- **C100** `examples/orproof.py` runs to its end, all three assertions hold: marking a clause in one of three ways gives
the same identifier, and the proof, which knows the second clause only, is accepted. -/
theorem C100_or (env : Env E) (G : Grp) (g0 g1 : Pt E) (x0 x1 : Sec) (w : World) (hord : G.order ≠ 0)
    (hg : ∀ p ∈ [g0, g1], p.grp = G ∧ (G.order : Int) • p.val = 0) :
    ∃ w', orScript env g0 g1 x0 x1 w = .ok ((), w') := by
  simp only [List.mem_cons, List.not_mem_nil, or_false, forall_eq_or_imp, forall_eq] at hg
  obtain ⟨⟨rfl, t0⟩, e1, t1⟩ := hg
  unfold orScript
  rw [pm_bind_eq (new_ok _ _ _), pm_bind_eq (new_ok _ _ _)]
  simp only []
  rw [pm_bind_eq (rep1_ok _ _ _ _ _), pm_bind_eq (rep1_ok _ _ _ _ _)]
  simp only [opOr, mkOr, List.length_cons, List.length_nil, Nat.reduceAdd, lt_self_iff_false, if_false, pm_liftE_bind,
    markFirst]
  rw [pm_bind_eq (rep1_ok _ _ _ _ _), pm_bind_eq (rep1_ok _ _ _ _ _)]
  simp only [List.length_cons, List.length_nil, Nat.reduceAdd, lt_self_iff_false, if_false, pm_liftE_bind]
  rw [pm_getStore_bind]
  simp only []
  generalize hσ : ({ name := _, value := _ } : Store) = σ
  have v1 : σ.value x1 = some 40 := by rw [← hσ]; simp
  have hheap : ∀ b ts, heapFor σ [] (.or b ts : Core E) = σ := fun b ts => by cases σ; simp [heapFor]
  obtain ⟨id, hid⟩ := id_ok σ (.or false [Tree.setSimulated true (.leaf ⟨Pt.smul 3 g0, [g0], [x0], knownValues σ [x0] [], false⟩),
      .leaf ⟨Pt.smul 40 g1, [g1], [x1], knownValues σ [x1] [], false⟩] : Core E)
  rw [hid]
  simp only [pm_liftE_bind, decide_true]
  rw [pm_bind_eq (assert_ok _)]
  rw [pm_bind_eq (rep1_ok _ _ _ _ _), pm_bind_eq (rep1_ok _ _ _ _ _)]
  simp only [List.length_cons, List.length_nil, Nat.reduceAdd, lt_self_iff_false, if_false, pm_liftE_bind]
  have hsim : (Tree.setSimulated true (.leaf ⟨Pt.smul 3 g0, [g0], [x0], knownValues σ [x0] [], false⟩) : Core E) =
    .leaf ⟨Pt.smul 3 g0, [g0], [x0], knownValues σ [x0] [], true⟩ := rfl
  rw [hsim] at hid ⊢
  rw [hid]
  simp only [pm_liftE_bind, decide_true]
  rw [pm_bind_eq (assert_ok _)]
  obtain ⟨t1, w', h, _⟩ := interact_complete env (w := ⟨σ, w.rng⟩) (d := []) (X := valueOf)
    (t := .or false [.leaf ⟨Pt.smul 3 g0, [g0], [x0], knownValues σ [x0] [], true⟩,
      .leaf ⟨Pt.smul 40 g1, [g1], [x1], knownValues σ [x1] [], false⟩])
    (by simp [Solid, SolidL, Pt.smul, hord, e1]) (by
      intro x b hm
      simp only [terms, termsL, List.zip_cons_cons, List.zip_nil_right, List.cons_append, List.nil_append, List.append_nil,
        List.mem_cons, Prod.mk.injEq, List.not_mem_nil, or_false] at hm
      rcases hm with ⟨_, rfl⟩ | ⟨_, rfl⟩
      · exact t0
      · rw [e1]; exact t1) trivial (by
      rw [hheap]
      refine .any _ ⟨_, List.mem_cons_of_mem _ (List.mem_cons_self ..), rfl⟩ fun t ht hu => ?_
      simp only [List.mem_cons, List.not_mem_nil, or_false] at ht
      rcases ht with rfl | rfl
      · simp [unmarked] at hu
      · exact satisfied_rep (by simp [Told]) rfl (by simp [v1]) (.rep _ _ (by simp [Pt.smul])
            (by simp [Pt.smul, valueOf, Store.key, v1]))) (by
      rw [hheap]
      refine .or _ _ (same_orders (G := g0.grp) (by simp [terms, termsL, e1])) fun t ht => ?_
      simp only [List.mem_cons, List.not_mem_nil, or_false] at ht
      rcases ht with rfl | rfl <;> exact .leaf _)
  rw [pm_bind_eq h]
  exact ⟨w', rfl⟩

example : ∃ w', orScript (Ex.env 3) (Ex.P 1) (Ex.P 2) 0 1 ⟨Ex.σ0, fun n => n⟩ = .ok ((), w') :=
  C100_or _ Ex.G _ _ _ _ _ (by decide) (by decide)

/-- **C100** `examples/simple_dlrep.py` runs to its end, the assertion holds, and the call of `verify()` in the last line
returns `True`. -/
theorem C100_simple (env : Env E) (G : Grp) (g0 g1 : Pt E) (x0 x1 : Sec) (w : World) (hord : G.order ≠ 0)
    (hg : ∀ p ∈ [g0, g1], p.grp = G ∧ (G.order : Int) • p.val = 0) (hn : w.store.name x0 ≠ w.store.name x1) :
    ∃ w', simpleScript env g0 g1 x0 x1 w = .ok (true, w') := by
  simp only [List.mem_cons, List.not_mem_nil, or_false, forall_eq_or_imp, forall_eq] at hg
  obtain ⟨⟨rfl, t0⟩, e1, t1⟩ := hg
  unfold simpleScript
  rw [pm_bind_eq (new_ok _ _ _), pm_bind_eq (new_ok _ _ _)]
  simp only [comb2, Pt.add, Pt.smul, e1, if_true, pm_liftE_bind]
  rw [pm_bind_eq (rep2_ok _ _ _ _ _ e1 _)]
  simp only []
  generalize hσ : ({ name := _, value := _ } : Store) = σ
  have hkey : σ.key x0 ≠ σ.key x1 := fun h => hn (by rw [← hσ] at h; exact congrArg Prod.fst h)
  generalize hs : (⟨⟨g0.grp, (4 : Int) • g0.val + (42 : Int) • g1.val⟩, [g0, g1], [x0, x1], knownValues σ [x0, x1] [], false⟩ : DLRep E) = s
  have s1 : s.secretVars = [x0, x1] := by rw [← hs]
  have s2 : s.bases = [g0, g1] := by rw [← hs]
  have s3 : s.lhs = ⟨g0.grp, (4 : Int) • g0.val + (42 : Int) • g1.val⟩ := by rw [← hs]
  have hu : Dict.Uniq σ [(x0, (4 : Int)), (x1, 42)] := by
    simp [Dict.Uniq, Dict.get?, Ne.symm hkey]
  have hv : ∀ s' : DLRep E, s'.secretVars = [x0, x1] → ∀ x ∈ s'.secretVars,
      given σ [(x0, (4 : Int)), (x1, 42)] s' x = some ((fun k => if k = σ.key x0 then 4 else 42) (σ.key x)) := by
    intro s' h x hx
    rw [h] at hx
    simp only [List.mem_cons, List.not_mem_nil, or_false] at hx
    rcases hx with rfl | rfl <;> simp [given, Dict.get?, hkey, Ne.symm hkey]
  have he : ∀ s' : DLRep E, s'.secretVars = [x0, x1] → s'.bases = [g0, g1] → s'.lhs = s.lhs →
      s'.lhs.val = (List.zipWith (fun x b => (fun k => if k = σ.key x0 then (4 : Int) else 42) (σ.key x) • b.val)
        s'.secretVars s'.bases).sum := by
    intro s' h1 h2 h3
    rw [h1, h2, h3, s3]
    simp [Ne.symm hkey]
  have hgrp : ∀ s' : DLRep E, s'.bases = [g0, g1] → s'.lhs = s.lhs → ∀ b ∈ s'.bases, b.grp = s'.lhs.grp := by
    intro s' h2 h3
    rw [h2, h3, s3]
    simp [e1]
  obtain ⟨t1', w', h, hw, i1, i2⟩ := interact_complete env (w := ⟨σ, w.rng⟩) (d := [(x0, 4), (x1, 42)])
    (X := fun k => if k = σ.key x0 then 4 else 42) (t := .leaf s)
    (by simp [Solid, s1, s2, s3, hord, e1]) (by
      intro x b hm
      simp only [terms, s1, s2, List.zip_cons_cons, List.zip_nil_right, 
        List.mem_cons, Prod.mk.injEq, List.not_mem_nil, or_false] at hm
      rcases hm with ⟨_, rfl⟩ | ⟨_, rfl⟩
      · exact t0
      · rw [e1]; exact t1) hu (.rep _ (hv s s1) (.rep _ _ (hgrp s s2 rfl) (he s s1 s2 rfl))) (.leaf _)
  rw [pm_bind_eq h]
  simp only []
  rw [pm_bind_eq (assert_ok _)]
  obtain ⟨s', rfl⟩ : ∃ s', t1' = .leaf s' := by
    cases t1' with
    | leaf s' => exact ⟨_, rfl⟩
    | and b ts => simp [shape] at i1
    | or b ts => simp [shape] at i1
  simp only [shape] at i1
  injection i1 with i3 i4 i5
  simp only [secrets] at i2
  have hw : w'.store = σ := hw
  obtain ⟨nizk, t', w'', j1, j2, j3, j4, _⟩ := C13_dlrep_complete env s' [(x0, 4), (x1, 42)] w' ""
    (fun k => if k = σ.key x0 then 4 else 42) (by rw [i2, i4, s1, s2]; rfl)
    (by rw [i4, s2]; simp) (hgrp s' (i4.trans s2) i3) (by rw [i3, s3]; exact hord) (by
      rw [i4, s2, i3, s3]
      intro b hb
      simp only [List.mem_cons, List.not_mem_nil, or_false] at hb
      rcases hb with rfl | rfl
      · exact t0
      · exact t1) (hw ▸ hu) (by rw [hw]; exact hv s' (i2.trans s1))
    (by rw [hw]; exact he s' (i2.trans s1) (i4.trans s2) i3)
  rw [pm_bind_eq j1]
  simp only []
  rw [pm_getStore_bind, j4]
  exact ⟨_, rfl⟩

example : ∃ w', simpleScript (Ex.env 3) (Ex.P 1) (Ex.P 2) 0 1 ⟨Ex.σ0, fun n => n⟩ = .ok (true, w') :=
  C100_simple _ Ex.G _ _ _ _ _ (by decide) (by decide) (by decide)

/-- **C100** `examples/andproof.py` runs to its end, all three assertions hold: the operator and the class give the same
identifier, the proof is accepted, and a statement with two different secrets has another identifier than the one that
repeats a secret, although all secrets have the same value. -/
theorem C100_and (env : Env E) (G : Grp) (g0 g1 g2 g3 : Pt E) (x0 x1 x2 x0' x1' x1prime : Sec) (w : World)
    (hord : G.order ≠ 0) (hg : ∀ p ∈ [g0, g1, g2, g3], p.grp = G ∧ (G.order : Int) • p.val = 0)
    (hx : [x0, x1, x2].Nodup) (hn : w.store.name x0' ≠ w.store.name x1') :
    ∃ w', andScript env g0 g1 g2 g3 x0 x1 x2 x0' x1' x1prime w = .ok ((), w') := by
  simp only [List.mem_cons, List.not_mem_nil, or_false, forall_eq_or_imp, forall_eq] at hg
  obtain ⟨⟨rfl, t0⟩, ⟨e1, t1⟩, ⟨e2, t2⟩, e3, t3⟩ := hg
  simp only [List.nodup_cons, List.mem_cons, List.not_mem_nil, or_false, not_or, List.nodup_nil, and_true,
    not_false_eq_true] at hx
  obtain ⟨⟨n1, n2⟩, n3⟩ := hx
  unfold andScript
  rw [pm_bind_eq (new_ok _ _ _), pm_bind_eq (new_ok _ _ _), pm_bind_eq (new_ok _ _ _)]
  simp only [comb2, Pt.add, Pt.smul, e1, e2, e3, if_true, pm_liftE_bind]
  have e32 := e3.trans e2.symm
  rw [pm_bind_eq (rep2_ok _ _ _ _ _ e1 _), pm_bind_eq (rep2_ok _ _ _ _ _ e32 _)]
  simp only [opAnd, mkAnd, List.length_cons, List.length_nil, Nat.reduceAdd, lt_self_iff_false, if_false, pm_liftE_bind]
  rw [pm_bind_eq (rep2_ok _ _ _ _ _ e1 _), pm_bind_eq (rep2_ok _ _ _ _ _ e32 _)]
  simp only [List.length_cons, List.length_nil, Nat.reduceAdd, lt_self_iff_false, if_false, pm_liftE_bind]
  rw [pm_getStore_bind]
  simp only []
  generalize hσ : ({ name := _, value := _ } : Store) = σ
  have hnam : σ.name = w.store.name := by rw [← hσ]
  generalize hs : (Tree.and false [.leaf ⟨⟨g0.grp, (4 : Int) • g0.val + (5 : Int) • g1.val⟩, [g0, g1], [x0, x1], knownValues σ [x0, x1] [], false⟩,
    .leaf ⟨⟨g0.grp, (4 : Int) • g2.val + (7 : Int) • g3.val⟩, [g2, g3], [x0, x2], knownValues σ [x0, x2] [], false⟩] : Core E) = t
  obtain ⟨id, hid⟩ := id_ok σ t
  rw [hid]
  simp only [pm_liftE_bind, decide_true]
  rw [pm_bind_eq (assert_ok _)]
  generalize hσ' : heapFor σ [(x0, (4 : Int)), (x1, 5), (x2, 7)] t = σ'
  have v0 : σ'.value x0 = some 4 := by rw [← hσ', ← hs]; simp [heapFor, Ne.symm n1, Ne.symm n2]
  have v1 : σ'.value x1 = some 5 := by rw [← hσ', ← hs]; simp [heapFor, n1, Ne.symm n3]
  have v2 : σ'.value x2 = some 7 := by rw [← hσ', ← hs]; simp [heapFor]
  have hnam' : σ'.name = w.store.name := by rw [← hσ', ← hs]; exact hnam
  have gv : ∀ s : DLRep E, given σ' [(x0, (4 : Int)), (x1, 5), (x2, 7)] s x0 = some 4 ∧
      given σ' [(x0, (4 : Int)), (x1, 5), (x2, 7)] s x1 = some 5 ∧
      given σ' [(x0, (4 : Int)), (x1, 5), (x2, 7)] s x2 = some 7 := by
    intro s
    simp [given, Dict.get?, Store.key, v0, v1, v2]
  have gv0 := fun s => (gv s).1
  have gv1 := fun s => (gv s).2.1
  have gv2 := fun s => (gv s).2.2
  obtain ⟨t1', w', h, hw, _⟩ := interact_complete env (w := ⟨σ, w.rng⟩) (d := [(x0, 4), (x1, 5), (x2, 7)]) (X := valueOf)
    (t := t) (by rw [← hs]; simp [Solid, SolidL, hord, e1, e2, e3]) (by
      intro x b hm
      rw [← hs] at hm
      simp only [terms, termsL, List.zip_cons_cons, List.zip_nil_right, List.cons_append, List.nil_append, List.append_nil,
        List.mem_cons, Prod.mk.injEq, List.not_mem_nil, or_false] at hm
      rcases hm with ⟨_, rfl⟩ | ⟨_, rfl⟩ | ⟨_, rfl⟩ | ⟨_, rfl⟩
      · exact t0
      · rw [e1]; exact t1
      · rw [e2]; exact t2
      · rw [e3]; exact t3) (by
      simp only [hσ']
      simp [Dict.Uniq, Dict.get?, Store.key, v0, v1, v2]) (by
      simp only [hσ']
      rw [← hs]
      refine .all _ fun t ht => ?_
      simp only [List.mem_cons, List.not_mem_nil, or_false] at ht
      rcases ht with rfl | rfl
      · exact .rep _ (by simp [gv0, gv1, valueOf, Store.key, v0, v1]) (.rep _ _ (by simp [e1])
            (by simp [valueOf, Store.key, v0, v1]))
      · exact .rep _ (by simp [gv0, gv2, valueOf, Store.key, v0, v2]) (.rep _ _ (by simp [e2, e3])
            (by simp [valueOf, Store.key, v0, v2]))) (by
      simp only [hσ']
      rw [← hs]
      refine .and _ _ (same_orders (G := g0.grp) ?_) (private_leaves (ss := [_, _])) fun t ht => ?_
      · simp [terms, termsL, e1, e2, e3]
      · simp only [List.mem_cons, List.not_mem_nil, or_false] at ht
        rcases ht with rfl | rfl <;> exact .leaf _)
  rw [pm_bind_eq h]
  simp only []
  rw [pm_bind_eq (assert_ok _)]
  rw [pm_bind_eq (new_ok _ _ _), pm_bind_eq (new_ok _ _ _), pm_bind_eq (rep1_ok _ _ _ _ _), pm_bind_eq (rep1_ok _ _ _ _ _)]
  simp only [List.length_cons, List.length_nil, Nat.reduceAdd, lt_self_iff_false, if_false, pm_liftE_bind]
  rw [pm_bind_eq (new_ok _ _ _), pm_bind_eq (rep1_ok _ _ _ _ _), pm_bind_eq (rep1_ok _ _ _ _ _)]
  simp only [List.length_cons, List.length_nil, Nat.reduceAdd, lt_self_iff_false, if_false, pm_liftE_bind]
  rw [pm_getStore_bind]
  simp only []
  generalize hτ : ({ name := _, value := fun y => if y = x1prime then _ else _ } : Store) = τ
  have hτn : τ.name = w.store.name := by
    rw [← hτ, hw]; simp only [hσ']; exact hnam'
  generalize hA : (Tree.and false [.leaf _, .leaf _] : Core E) = A
  obtain ⟨idA, hidA⟩ := id_ok τ A
  rw [hidA, pm_liftE_bind]
  generalize hB : (Tree.and false [.leaf _, .leaf _] : Core E) = B
  obtain ⟨idB, hidB⟩ := id_ok τ B
  rw [hidB, pm_liftE_bind]
  have hne : idA ≠ idB := by
    intro hE
    subst hE
    have := (Tree.proofId_eq_iff (σ := τ) (σ' := τ) (skel_core A) (skel_core B) (vs := [x0', x1']) (vs' := [x1prime, x1prime])
      (by rw [← hA]; rfl) (by rw [← hB]; rfl)).mp (hidA.trans hidB.symm)
    have hE := (this.2.2 0 1 _ _ _ _ rfl rfl rfl rfl).mpr rfl
    rw [hτn] at hE
    exact hn hE
  simp only [ne_eq, hne, not_false_eq_true, decide_true]
  exact ⟨_, rfl⟩

example : ∃ w', andScript (Ex.env 3) (Ex.P 1) (Ex.P 2) (Ex.P 3) (Ex.P 4) 0 1 2 0 1 2 ⟨Ex.σ0, fun n => n⟩ = .ok ((), w') :=
  C100_and _ Ex.G _ _ _ _ _ _ _ _ _ _ _ (by decide) (by decide) (by decide) (by decide)

private theorem prover_ok {s : DLRep E} {d : Dict Int} {w : World} (h1 : s.secretVars.length = s.bases.length)
    (h2 : s.bases ≠ []) (h3 : d.Uniq w.store) (h4 : ∀ x ∈ s.secretVars, (given w.store d s x).isSome) :
    ∃ p t', (PTree.getProver (.leaf s) d : PM (Option (CoreProver E) × Core E)) w = .ok ((some p, t'), w) := by
  obtain ⟨p, s', h⟩ := getProver_leaf_ok h1 h2 h3 h4
  simp only [PTree.getProver]
  rw [pm_bind_eq (show ProverOps.getProver s d w = _ from h)]
  exact ⟨_, _, rfl⟩

/-- **C100** `examples/expressions.py` runs to its end: both calls of `get_prover` return provers, the value of the
expression is `5 * g`, and the statement made of the expression and its value is that of the point `5 * g`, the secret and
the base. -/
theorem C100_expressions (g g' h : Pt E) (xa xb xc xd xe ye xf : Sec) (w : World) :
    ∃ s w', expressionsScript g g' h xa xb xc xd xe ye xf w = .ok ((true, true, ⟨g'.grp, (5 : Int) • g'.val⟩, .leaf s), w') ∧
      s.lhs = ⟨g'.grp, (5 : Int) • g'.val⟩ ∧ s.bases = [g'] ∧ s.secretVars = [xf] ∧ s.simulated = false := by
  unfold expressionsScript
  rw [pm_bind_eq (new_ok _ _ _), pm_bind_eq (new_ok _ _ _), pm_bind_eq (new_ok _ _ _), pm_bind_eq (rep1_ok _ _ _ _ _)]
  simp only []
  generalize hσ : ({ name := _, value := _ } : Store) = σ
  have v : σ.value xc = some 4 := by rw [← hσ]; simp
  obtain ⟨p, t, hp⟩ := prover_ok (s := ⟨Pt.smul 4 g, [g], [xc], knownValues σ [xc] [], false⟩) (d := [])
    (w := { w with store := σ }) rfl (by simp) trivial (by
      simp [given, Dict.get?, knownValues, Dict.set, v])
  rw [pm_bind_eq hp]
  simp only []
  rw [pm_bind_eq (new_ok _ _ _), pm_bind_eq (rep1_ok _ _ _ _ _)]
  simp only []
  generalize hτ : ({ name := _, value := _ } : Store) = τ
  obtain ⟨q, u, hq⟩ := prover_ok (s := ⟨Pt.smul 4 g, [g], [xd], knownValues τ [xd] [], false⟩) (d := [(xd, 4)])
    (w := { w with store := τ }) rfl (by simp) (by simp [Dict.Uniq, Dict.get?]) (by simp [given, Dict.get?])
  rw [pm_bind_eq hq]
  simp only []
  rw [pm_bind_eq (new_ok _ _ _), pm_bind_eq (new_ok _ _ _)]
  simp only [newExpr, addExpr, pm_liftE_bind, List.length_nil, List.nil_append, List.length_cons, List.cons_append]
  simp only [List.getElem?_cons_zero, List.getElem?_cons_succ, pm_liftE_bind, Nat.reduceAdd]
  rw [pm_bind_eq (new_ok _ _ _)]
  simp only [pm_liftE_bind, List.set_cons_zero, List.length_nil, List.nil_append, List.length_cons, List.cons_append, Nat.reduceAdd]
  rw [pm_getStore_bind]
  have he : ∀ (σ : Store) (a b : EObj E), σ.value xf = some 5 → evalExpr σ [a, b, ⟨[xf], [g']⟩] 2 = .ok (Pt.smul 5 g') := by
    intro σ a b hσ
    simp [evalExpr, EObj.eval, EObj.ithMul, EObj.evalGo, hσ]
    rfl
  rw [he _ _ _ (by simp)]
  simp only [pm_liftE_bind, dlrepOf, List.getElem?_cons_zero, List.getElem?_cons_succ, mkDLRep, Pt.smul]
  refine ⟨⟨⟨g'.grp, (5 : Int) • g'.val⟩, [g'], [xf], ?_, false⟩, ?_, ?_, rfl, rfl, rfl, rfl⟩
  rotate_left 2
  · simp
    rfl

example : ∃ s w', expressionsScript (Ex.P 1) (Ex.P 2) (Ex.P 3) 0 1 2 3 4 5 6 ⟨Ex.σ0, fun n => n⟩ =
    .ok ((true, true, Ex.P 3, .leaf s), w') :=
  let ⟨s, w', h, _⟩ := C100_expressions (Ex.P 1) (Ex.P 2) (Ex.P 3) 0 1 2 3 4 5 6 ⟨Ex.σ0, fun n => n⟩
  ⟨s, w', h⟩

end Zksk.Props
