import Verif.Lemmas.Simulate
import Verif.Lemmas.Sound
import Verif.Lemmas.State
import Verif.Lemmas.Frame
import Verif.Lemmas.GetProver
import Verif.Lemmas.CoreComplete
import Verif.Lemmas.Compose

/-! Sub-challenges that honest provers and simulators choose. -/

set_option linter.unusedSectionVars false

namespace Zksk

open Spec

variable {E : Type} [AddCommGroup E] [DecidableEq E]

theorem rangedL_of : ∀ {ts : List (Core E)} {rs : List (Val E)}, rs.length = ts.length →
    (∀ (i : Nat) (t : Core E) (r : Val E), ts[i]? = some t → rs[i]? = some r → Ranged t r) → RangedL ts rs
  | [], [], _, _ => rfl
  | [], _ :: _, h, _ => by simp at h
  | _ :: _, [], h, _ => by simp at h
  | t :: ts, r :: rs, hl, h => ⟨r, rs, rfl, h 0 t r (by simp) (by simp), rangedL_of (by simpa using hl) fun i t r ht hr =>
      h (i + 1) t r (by simpa using ht) (by simpa using hr)⟩

mutual
theorem ranged_shape : ∀ (t u : Core E) (r : Val E), shape t = shape u → Ranged t r → Ranged u r
  | .leaf _, .leaf _, _, _, _ => trivial
  | .leaf _, .and _ _, _, h, _ => by simp [shape] at h
  | .leaf _, .or _ _, _, h, _ => by simp [shape] at h
  | .and _ _, .leaf _, _, h, _ => by simp [shape] at h
  | .and _ _, .or _ _, _, h, _ => by simp [shape] at h
  | .or _ _, .leaf _, _, h, _ => by simp [shape] at h
  | .or _ _, .and _ _, _, h, _ => by simp [shape] at h
  | .and _ ts, .and _ us, r, h, hr => by
    simp only [shape, Skel.all.injEq] at h
    obtain ⟨rs, h1, h2⟩ := hr
    exact ⟨rs, h1, (rangedL_shape ts us rs h).2 h2⟩
  | .or _ ts, .or _ us, r, h, hr => by
    simp only [shape, Skel.any.injEq] at h
    obtain ⟨cs, rs, h1, h2, h3, h4⟩ := hr
    exact ⟨cs, rs, h1, h2.trans (rangedL_shape ts us rs h).1, h3, (rangedL_shape ts us rs h).2 h4⟩
theorem rangedL_shape : ∀ (ts us : List (Core E)) (rs : List (Val E)), shapeL ts = shapeL us →
    ts.length = us.length ∧ (RangedL ts rs → RangedL us rs)
  | [], [], _, _ => ⟨rfl, fun h => h⟩
  | [], _ :: _, _, h => by simp [shapeL] at h
  | _ :: _, [], _, h => by simp [shapeL] at h
  | t :: ts, u :: us, rs, h => by
    simp only [shapeL, List.cons.injEq] at h
    refine ⟨by simp [(rangedL_shape ts us rs h.2).1], fun hr => ?_⟩
    obtain ⟨r, rs', h1, h2, h3⟩ := hr
    exact ⟨r, rs', h1, ranged_shape t u r h.1 h2, (rangedL_shape ts us rs' h.2).2 h3⟩
end

mutual
theorem ranged_inRange : ∀ (t : Core E) (r : Val E), Ranged t r → InRange t r
  | .leaf _, _, _ => trivial
  | .and _ ts, r, hr => by
    obtain ⟨rs, rfl, h⟩ := hr
    exact rangedL_inRange ts [] rs h
  | .or _ ts, r, hr => by
    obtain ⟨cs, rs, rfl, h1, h2, h3⟩ := hr
    refine ⟨fun cs' hcs => ?_, fun rs' hrs => ?_⟩
    · simp only [Val.index, List.getElem?_cons_zero, Except.ok.injEq, Val.list.injEq] at hcs
      have : cs = cs' := List.map_injective_iff.mpr (fun a b h => by injection h) hcs
      subst this
      exact ⟨h1, h2⟩
    · simp only [Val.index, List.getElem?_cons_succ, List.getElem?_cons_zero, Except.ok.injEq] at hrs
      subst hrs
      exact rangedL_inRange ts [] rs h3
theorem rangedL_inRange : ∀ (ts : List (Core E)) (pre rs : List (Val E)), RangedL ts rs → InRangeL ts (.list (pre ++ rs)) pre.length
  | [], _, _, _ => trivial
  | t :: ts, pre, rs, h => by
    obtain ⟨r, rs', rfl, h1, h2⟩ := h
    refine ⟨fun ri hri => ?_, ?_⟩
    · rw [index_list] at hri
      simp only [List.getElem?_append_right (Nat.le_refl _), Nat.sub_self, List.getElem?_cons_zero, Option.some.injEq] at hri
      subst hri
      exact ranged_inRange t r h1
    · have := rangedL_inRange ts (pre ++ [r]) rs' h2
      simpa using this
end

theorem residual_range (cs : List Int) (c : Int) :
    -2 ^ 128 < findResidualChallenge cs c challengeLength ∧ findResidualChallenge cs c challengeLength ≤ 0 := by
  have h := findResidual_eq cs c challengeLength
  simp only [challengeLength] at h ⊢
  rw [h]
  omega

/-- What is known about the challenge and the responses of a simulated transcript. -/
def SimTame (k : Core E) (sim : Sim E) (c : Option Int) : Prop :=
  (∀ c0, c = some c0 → sim.challenge = c0) ∧ (c = none → 0 ≤ sim.challenge ∧ sim.challenge < 2 ^ 128) ∧
    Ranged k sim.responses

theorem tame_challengeOrDraw {c : Option Int} {w w' : World} {c' : Int}
    (h : Tree.challengeOrDraw c w = .ok (c', w')) :
    (∀ c0, c = some c0 → c' = c0) ∧ (c = none → 0 ≤ c' ∧ c' < 2 ^ 128) := by
  refine ⟨(challengeOrDraw_ok h).2, ?_⟩
  rintro rfl
  simp only [Tree.challengeOrDraw, getRandomNum] at h
  have := draw_ok h
  simp only [challengeLength] at this
  exact ⟨this.2.1, by exact_mod_cast this.2.2.1⟩

section
variable {L : Type} [StmtOps E L] [StmtView E L]

/-- Simulations give sub-challenges in range. -/
theorem simulate_tame
    (hleaf : ∀ (l : L) (k : Core E), StmtView.core l = some k → ∀ (w w' : World) (d : Option (Dict Int)) (c : Option Int)
      (sim : Sim E), StmtOps.simulate l d c w = .ok (sim, w') → SimTame k sim c) :
    ∀ (t : Tree L) (k : Core E), Tree.core t = some k → ∀ (w w' : World) (d : Option (Dict Int)) (c : Option Int)
      (sim : Sim E), Tree.simulate t d c w = .ok (sim, w') → SimTame k sim c := by
  intro t
  induction t using Tree.ind with
  | leaf l =>
    intro k hk w w' d c sim h
    simp only [Tree.simulate] at h
    exact hleaf l k hk w w' d c sim h
  | and s subs ih =>
    intro k hk w w' d c sim h
    simp only [Tree.core, Option.map_eq_some_iff] at hk
    obtain ⟨ks, hks, rfl⟩ := hk
    have loop : ∀ (ts : List (Tree L)), (∀ t ∈ ts, t ∈ subs) → ∀ (d : Dict Int) (c : Int) (w w' : World) (sims : List (Sim E)),
        Tree.simulateAnd ts d c w = .ok (sims, w') → sims.length = ts.length ∧
        ∀ (i : Nat) (t : Tree L) (k : Core E) (sim : Sim E), ts[i]? = some t →
          Tree.core t = some k → sims[i]? = some sim → Ranged k sim.responses := by
      intro ts
      induction ts with
      | nil =>
        intro _ d c w w' sims h
        simp only [Tree.simulateAnd, pm_pure_iff, Prod.mk.injEq] at h
        rw [← h.1]
        exact ⟨rfl, by simp⟩
      | cons t ts ihl =>
        intro hm d c w w' sims h
        simp only [Tree.simulateAnd] at h
        obtain ⟨s1, w1, h1, h⟩ := pm_bind.mp h
        obtain ⟨ss, w2, h2, h⟩ := pm_bind.mp h
        rw [pm_pure_iff, Prod.mk.injEq] at h
        obtain ⟨rfl, _⟩ := h
        obtain ⟨f1, f2⟩ := ihl (fun t ht => hm t (by simp [ht])) d c w1 w2 ss h2
        refine ⟨by simp [f1], fun i u k sim hu hk hs => ?_⟩
        cases i with
        | zero =>
          simp only [List.getElem?_cons_zero, Option.some.injEq] at hu hs
          subst hu; subst hs
          exact (ih t (hm t (by simp)) k hk w w1 _ _ _ h1).2.2
        | succ i => exact f2 i u k sim (by simpa using hu) hk (by simpa using hs)
    simp only [Tree.simulate] at h
    obtain ⟨d', w1, h1, h⟩ := pm_bind.mp h
    obtain ⟨c', w2, h2, h⟩ := pm_bind.mp h
    obtain ⟨sims, w3, h3, h⟩ := pm_bind.mp h
    rw [pm_pure_iff, Prod.mk.injEq] at h
    obtain ⟨rfl, _⟩ := h
    obtain ⟨g1, g2⟩ := tame_challengeOrDraw h2
    obtain ⟨f1, f2⟩ := loop subs (fun _ h => h) d' c' w2 w3 sims h3
    refine ⟨g1, g2, _, rfl, rangedL_of (by rw [List.length_map, f1, (coreL_get hks).1]) fun i k ri hk hri => ?_⟩
    obtain ⟨t, ht, htk⟩ := (coreL_get hks).2 i k hk
    rw [List.getElem?_map, Option.map_eq_some_iff] at hri
    obtain ⟨si, hsi, rfl⟩ := hri
    exact f2 i t k si ht htk hsi
  | or s subs ih =>
    intro k hk w w' d c sim h
    simp only [Tree.core, Option.map_eq_some_iff] at hk
    obtain ⟨ks, hks, rfl⟩ := hk
    have loop : ∀ (ts : List (Tree L)) (ks : List (Core E)), (∀ t ∈ ts, t ∈ subs) → Tree.coreL ts = some ks → ∀ (c : Int) (acc : List Int)
        (w w' : World) (sims : List (Sim E)), Tree.simulateOr ts c acc w = .ok (sims, w') → sims.length = ts.length ∧
        (∀ sim ∈ sims, -2 ^ 128 < sim.challenge ∧ sim.challenge < 2 ^ 128) ∧
        ∀ (i : Nat) (k : Core E) (sim : Sim E), ks[i]? = some k → sims[i]? = some sim → Ranged k sim.responses := by
      intro ts
      induction ts with
      | nil =>
        intro ks _ hks c acc w w' sims h
        simp only [Tree.coreL, Option.some.injEq] at hks
        simp only [Tree.simulateOr, pm_pure_iff, Prod.mk.injEq] at h
        obtain ⟨rfl, rfl⟩ := h
        subst hks
        simp
      | cons t ts ihl =>
        intro ks hm hks c acc w w' sims h
        obtain ⟨a, as, ha, has, rfl⟩ := Tree.coreL_cons.mp hks
        cases ts with
        | nil =>
          simp only [Tree.simulateOr] at h
          obtain ⟨s1, w1, h1, h⟩ := pm_bind.mp h
          rw [pm_pure_iff, Prod.mk.injEq] at h
          obtain ⟨rfl, _⟩ := h
          simp only [Tree.coreL, Option.some.injEq] at has
          subst has
          obtain ⟨e1, _, e2⟩ := ih t (hm t (by simp)) a ha _ _ _ _ _ h1
          have e3 := residual_range acc c
          rw [← e1 _ rfl] at e3
          refine ⟨rfl, ?_, fun i k sim hk hs => ?_⟩
          · intro sim hs
            simp only [List.mem_cons, List.not_mem_nil, or_false] at hs
            subst hs
            omega
          · cases i with
            | zero => simp at hk hs; subst hk; subst hs; exact e2
            | succ i => simp at hk
        | cons t2 ts =>
          simp only [Tree.simulateOr] at h
          obtain ⟨s1, w1, h1, h⟩ := pm_bind.mp h
          obtain ⟨ss, w2, h2, h⟩ := pm_bind.mp h
          rw [pm_pure_iff, Prod.mk.injEq] at h
          obtain ⟨rfl, _⟩ := h
          obtain ⟨_, e1, e2⟩ := ih t (hm t (by simp)) a ha _ _ _ _ _ h1
          obtain ⟨f1, f2, f3⟩ := ihl as (fun t ht => hm t (List.mem_cons_of_mem _ ht)) has c _ w1 w2 ss h2
          refine ⟨by simpa using f1, ?_, fun i k sim hk hs => ?_⟩
          · intro sim hs
            rcases List.mem_cons.mp hs with rfl | hs
            · have := e1 rfl
              omega
            · exact f2 sim hs
          · cases i with
            | zero => simp at hk hs; subst hk; subst hs; exact e2
            | succ i => exact f3 i k sim (by simpa using hk) (by simpa using hs)
    simp only [Tree.simulate] at h
    obtain ⟨c', w1, h1, h⟩ := pm_bind.mp h
    obtain ⟨sims, w2, h2, h⟩ := pm_bind.mp h
    rw [pm_pure_iff, Prod.mk.injEq] at h
    obtain ⟨rfl, _⟩ := h
    obtain ⟨g1, g2⟩ := tame_challengeOrDraw h1
    obtain ⟨f1, f2, f3⟩ := loop subs ks (fun _ h => h) hks c' [] w1 w2 sims h2
    refine ⟨g1, g2, sims.map Sim.challenge, sims.map Sim.responses, by rw [List.map_map]; rfl,
      by rw [List.length_map, f1, (coreL_get hks).1], fun c0 hc0 => ?_,
      rangedL_of (by rw [List.length_map, f1, (coreL_get hks).1]) fun i k ri hk hri => ?_⟩
    · obtain ⟨sim, hs, rfl⟩ := List.mem_map.mp hc0
      exact f2 sim hs
    · rw [List.getElem?_map, Option.map_eq_some_iff] at hri
      obtain ⟨si, hsi, rfl⟩ := hri
      exact f3 i k si hk hsi

/-- The slot of clause `i` among the simulations of all clauses but `idx`. -/
def slotOf (idx i : Nat) : Nat := if i > idx then i - 1 else i

/-- The simulated clauses have sub-challenges in range. -/
def SimsTame (idx : Nat) (stmts : List (Tree L)) (sims : List (Sim E)) : Prop :=
  (∀ sim ∈ sims, 0 ≤ sim.challenge ∧ sim.challenge < 2 ^ 128) ∧
    ∀ (i : Nat) (t : Tree L) (k : Core E) (sim : Sim E), i ≠ idx → stmts[i]? = some t → sims[slotOf idx i]? = some sim → Tree.core t = some k →
      Ranged k sim.responses

variable {P : Type} [ProverOps E L P]

mutual
/-- A prover whose simulated clauses have sub-challenges in range and whose leaves satisfy `PL`. -/
def Tame (PL : P → Prop) : PTree E L P → Prop
  | .leaf p => PL p
  | .and _ subs => TameL PL subs
  | .or _ idx stmts sub sims => Tame PL sub ∧ SimsTame idx stmts sims
/-- `Tame` for lists. -/
def TameL (PL : P → Prop) : List (PTree E L P) → Prop
  | [] => True
  | p :: ps => Tame PL p ∧ TameL PL ps
end

theorem tameL_iff {PL : P → Prop} : ∀ {ps : List (PTree E L P)}, TameL PL ps ↔ ∀ p ∈ ps, Tame PL p
  | [] => by simp [TameL]
  | p :: ps => by simp [TameL, tameL_iff]

mutual
theorem precommit_tame {PL : P → Prop} (hpre : ∀ (p p' : P) (v : Val E) (w w' : World), PL p →
    ProverOps.precommit p w = .ok ((v, p'), w') → PL p') : ∀ (p p' : PTree E L P) (v : Val E) (w w' : World), Tame PL p →
    PTree.precommit p w = .ok ((v, p'), w') → Tame PL p'
  | .leaf p, p', v, w, w', hp, h => by
    simp only [PTree.precommit] at h
    obtain ⟨⟨v1, p1⟩, w1, h1, h⟩ := pm_bind.mp h
    rw [pm_pure_iff, Prod.mk.injEq, Prod.mk.injEq] at h
    rw [← h.1.2]
    exact hpre _ _ _ _ _ hp h1
  | .and s ps, p', v, w, w', hp, h => by
    simp only [PTree.precommit] at h
    obtain ⟨⟨v1, p1⟩, w1, h1, h⟩ := pm_bind.mp h
    rw [pm_pure_iff, Prod.mk.injEq, Prod.mk.injEq] at h
    rw [← h.1.2]
    exact precommitL_tame hpre _ _ _ _ _ hp h1
  | .or s idx stmts sub sims, p', v, w, w', hp, h => by
    simp only [PTree.precommit] at h
    obtain ⟨⟨v1, p1⟩, w1, h1, h⟩ := pm_bind.mp h
    obtain ⟨vs, _, h⟩ := pm_liftE_bind_iff.mp h
    rw [pm_pure_iff, Prod.mk.injEq, Prod.mk.injEq] at h
    rw [← h.1.2]
    exact ⟨precommit_tame hpre _ _ _ _ _ hp.1 h1, hp.2⟩
theorem precommitL_tame {PL : P → Prop} (hpre : ∀ (p p' : P) (v : Val E) (w w' : World), PL p →
    ProverOps.precommit p w = .ok ((v, p'), w') → PL p') : ∀ (ps ps' : List (PTree E L P)) (vs : List (Val E)) (w w' : World),
    TameL PL ps → PTree.precommitL ps w = .ok ((vs, ps'), w') → TameL PL ps'
  | [], ps', vs, w, w', _, h => by
    simp only [PTree.precommitL, pm_pure_iff, Prod.mk.injEq] at h
    rw [← h.1.2]
    trivial
  | p :: ps, ps', vs, w, w', hp, h => by
    simp only [PTree.precommitL] at h
    obtain ⟨⟨v1, p1⟩, w1, h1, h⟩ := pm_bind.mp h
    obtain ⟨⟨vs1, ps1⟩, w2, h2, h⟩ := pm_bind.mp h
    rw [pm_pure_iff, Prod.mk.injEq, Prod.mk.injEq] at h
    rw [← h.1.2]
    exact ⟨precommit_tame hpre _ _ _ _ _ hp.1 h1, precommitL_tame hpre _ _ _ _ _ hp.2 h2⟩
end

mutual
theorem commit_tame {PL : P → Prop} (hcom : ∀ (p p' : P) (d : Option (Dict Int)) (v : Val E) (w w' : World), PL p →
    ProverOps.internalCommit p d w = .ok ((v, p'), w') → PL p') : ∀ (p p' : PTree E L P) (d : Option (Dict Int)) (v : Val E)
    (w w' : World), Tame PL p → PTree.internalCommit p d w = .ok ((v, p'), w') → Tame PL p'
  | .leaf p, p', d, v, w, w', hp, h => by
    simp only [PTree.internalCommit] at h
    obtain ⟨⟨v1, p1⟩, w1, h1, h⟩ := pm_bind.mp h
    rw [pm_pure_iff, Prod.mk.injEq, Prod.mk.injEq] at h
    rw [← h.1.2]
    exact hcom _ _ _ _ _ _ hp h1
  | .and s ps, p', d, v, w, w', hp, h => by
    simp only [PTree.internalCommit] at h
    rw [pm_getStore_bind] at h
    obtain ⟨_, _, h⟩ := pm_liftE_bind_iff.mp h
    obtain ⟨d', w1, _, h⟩ := pm_bind.mp h
    obtain ⟨⟨v1, p1⟩, w2, h1, h⟩ := pm_bind.mp h
    rw [pm_pure_iff, Prod.mk.injEq, Prod.mk.injEq] at h
    rw [← h.1.2]
    exact commitL_tame hcom _ _ _ _ _ _ hp h1
  | .or s idx stmts sub sims, p', d, v, w, w', hp, h => by
    simp only [PTree.internalCommit] at h
    rw [pm_getStore_bind] at h
    obtain ⟨_, _, h⟩ := pm_liftE_bind_iff.mp h
    obtain ⟨⟨v1, p1⟩, w1, h1, h⟩ := pm_bind.mp h
    obtain ⟨vs, _, h⟩ := pm_liftE_bind_iff.mp h
    rw [pm_pure_iff, Prod.mk.injEq, Prod.mk.injEq] at h
    rw [← h.1.2]
    exact ⟨commit_tame hcom _ _ _ _ _ _ hp.1 h1, hp.2⟩
theorem commitL_tame {PL : P → Prop} (hcom : ∀ (p p' : P) (d : Option (Dict Int)) (v : Val E) (w w' : World), PL p →
    ProverOps.internalCommit p d w = .ok ((v, p'), w') → PL p') : ∀ (ps ps' : List (PTree E L P)) (d : Dict Int) (vs : List (Val E))
    (w w' : World), TameL PL ps → PTree.internalCommitL ps d w = .ok ((vs, ps'), w') → TameL PL ps'
  | [], ps', d, vs, w, w', _, h => by
    simp only [PTree.internalCommitL, pm_pure_iff, Prod.mk.injEq] at h
    rw [← h.1.2]
    trivial
  | p :: ps, ps', d, vs, w, w', hp, h => by
    simp only [PTree.internalCommitL] at h
    obtain ⟨⟨v1, p1⟩, w1, h1, h⟩ := pm_bind.mp h
    obtain ⟨⟨vs1, ps1⟩, w2, h2, h⟩ := pm_bind.mp h
    rw [pm_pure_iff, Prod.mk.injEq, Prod.mk.injEq] at h
    rw [← h.1.2]
    exact ⟨commit_tame hcom _ _ _ _ _ _ hp.1 h1, commitL_tame hcom _ _ _ _ _ _ hp.2 h2⟩
end

theorem orSlotsGo_get {α : Type} (idx : Nat) (real : α) (sims : List α) : ∀ (n index : Nat) (l : List α),
    PTree.orSlotsGo idx real sims n index = .ok l → l.length = n ∧ ∀ (i : Nat) (x : α), l[i]? = some x →
      (index + i = idx ∧ x = real) ∨ (index + i ≠ idx ∧ sims[slotOf idx (index + i)]? = some x)
  | 0, index, l, h => by
    simp only [PTree.orSlotsGo, Except.ok.injEq] at h
    subst h
    simp
  | n + 1, index, l, h => by
    simp only [PTree.orSlotsGo] at h
    have key : ∃ x xs, l = x :: xs ∧ PTree.orSlotsGo idx real sims n (index + 1) = .ok xs ∧
        ((index = idx ∧ x = real) ∨ (index ≠ idx ∧ sims[slotOf idx index]? = some x)) := by
      split at h
      · obtain ⟨x, hx, h⟩ := bind_ok_iff.mp h
        obtain ⟨xs, hxs, h⟩ := bind_ok_iff.mp h
        injection h with h
        injection hx with hx
        exact ⟨x, xs, h.symm, hxs, .inl ⟨by assumption, hx.symm⟩⟩
      · change _ = Except.ok l at h
        cases hj : sims[slotOf idx index]? with
        | none => simp only [slotOf] at hj; simp [hj, bind_err] at h
        | some v =>
          have hj' := hj
          simp only [slotOf] at hj'
          simp only [hj', bind_ok] at h
          obtain ⟨xs, hxs, h⟩ := bind_ok_iff.mp h
          injection h with h
          exact ⟨v, xs, h.symm, hxs, .inr ⟨by assumption, rfl⟩⟩
    obtain ⟨x, xs, rfl, hxs, hx⟩ := key
    obtain ⟨e1, e2⟩ := orSlotsGo_get idx real sims n (index + 1) xs hxs
    refine ⟨by simp [e1], fun i y hy => ?_⟩
    cases i with
    | zero =>
      simp only [List.getElem?_cons_zero, Option.some.injEq] at hy
      subst hy
      exact hx
    | succ i =>
      have := e2 i y (by simpa using hy)
      rwa [show index + 1 + i = index + (i + 1) by omega] at this

theorem orSlots_get {α : Type} {n idx : Nat} {real : α} {sims l : List α} (h : PTree.orSlots n idx real sims = .ok l) :
    l.length = n ∧ ∀ (i : Nat) (x : α), l[i]? = some x →
      (i = idx ∧ x = real) ∨ (i ≠ idx ∧ sims[slotOf idx i]? = some x) := by
  simpa using orSlotsGo_get idx real sims n 0 l h

mutual
theorem response_tame {PL : P → Prop} (hres : ∀ (p : P) (c : Int) (r : Val E) (k : Core E) (w w' : World), PL p →
    ProverOps.computeResponse p c w = .ok (r, w') → StmtView.core (ProverOps.stmtOf p) = some k → Ranged k r) :
    ∀ (p : PTree E L P) (c : Int) (r : Val E) (k : Core E) (w w' : World), Tame PL p →
      PTree.computeResponse p c w = .ok (r, w') → Tree.core (PTree.stmtOf p) = some k → Ranged k r
  | .leaf p, c, r, k, w, w', hp, h, hk => by
    simp only [PTree.computeResponse] at h
    simp only [PTree.stmtOf, Tree.core] at hk
    exact hres p c r k w w' hp h hk
  | .and s ps, c, r, k, w, w', hp, h, hk => by
    simp only [PTree.computeResponse] at h
    obtain ⟨rs, w1, h1, h⟩ := pm_bind.mp h
    rw [pm_pure_iff, Prod.mk.injEq] at h
    obtain ⟨rfl, _⟩ := h
    simp only [PTree.stmtOf, Tree.core, Option.map_eq_some_iff] at hk
    obtain ⟨ks, hks, rfl⟩ := hk
    obtain ⟨f1, f2⟩ := responseL_tame hres ps c rs ks w w1 hp h1 hks
    exact ⟨rs, rfl, rangedL_of f1 f2⟩
  | .or s idx stmts sub sims, c, r, k, w, w', hp, h, hk => by
    simp only [PTree.computeResponse] at h
    obtain ⟨r0, w1, h1, h⟩ := pm_bind.mp h
    obtain ⟨cs, hcs, h⟩ := pm_liftE_bind_iff.mp h
    obtain ⟨rs, hrs, h⟩ := pm_liftE_bind_iff.mp h
    rw [pm_pure_iff, Prod.mk.injEq] at h
    obtain ⟨rfl, _⟩ := h
    simp only [PTree.stmtOf, Tree.core, Option.map_eq_some_iff] at hk
    obtain ⟨ks, hks, rfl⟩ := hk
    obtain ⟨a1, a2⟩ := orSlots_get hcs
    obtain ⟨b1, b2⟩ := orSlots_get hrs
    have hlen := (coreL_get hks).1
    rw [List.length_set] at hlen
    refine ⟨cs, rs, rfl, by rw [a1, hlen], fun c0 hc0 => ?_, rangedL_of (by rw [b1, hlen]) fun i k ri hk hri => ?_⟩
    · obtain ⟨i, hi⟩ := List.mem_iff_getElem?.mp hc0
      rcases a2 i c0 hi with ⟨_, rfl⟩ | ⟨_, hs⟩
      · have := residual_range (sims.map Sim.challenge) c
        omega
      · rw [List.getElem?_map, Option.map_eq_some_iff] at hs
        obtain ⟨sim, hs, rfl⟩ := hs
        have := hp.2.1 sim (List.mem_of_getElem? hs)
        omega
    · obtain ⟨t, ht, htk⟩ := (coreL_get hks).2 i k hk
      rcases b2 i ri hri with ⟨rfl, rfl⟩ | ⟨hne, hs⟩
      · rw [List.getElem?_set_self (by
          have := (List.getElem?_eq_some_iff.mp hk).1
          omega)] at ht
        cases ht
        exact response_tame hres sub _ _ k _ _ hp.1 h1 htk
      · rw [List.getElem?_set_ne (Ne.symm hne)] at ht
        rw [List.getElem?_map, Option.map_eq_some_iff] at hs
        obtain ⟨sim, hs, rfl⟩ := hs
        exact hp.2.2 i t k sim hne ht hs htk
theorem responseL_tame {PL : P → Prop} (hres : ∀ (p : P) (c : Int) (r : Val E) (k : Core E) (w w' : World), PL p →
    ProverOps.computeResponse p c w = .ok (r, w') → StmtView.core (ProverOps.stmtOf p) = some k → Ranged k r) :
    ∀ (ps : List (PTree E L P)) (c : Int) (rs : List (Val E)) (ks : List (Core E)) (w w' : World), TameL PL ps →
      PTree.computeResponseL ps c w = .ok (rs, w') → Tree.coreL (PTree.stmtOfL ps) = some ks →
      rs.length = ks.length ∧ ∀ (i : Nat) (k : Core E) (r : Val E), ks[i]? = some k → rs[i]? = some r → Ranged k r
  | [], c, rs, ks, w, w', _, h, hks => by
    simp only [PTree.stmtOfL, Tree.coreL, Option.some.injEq] at hks
    simp only [PTree.computeResponseL, pm_pure_iff, Prod.mk.injEq] at h
    rw [← h.1, ← hks]
    simp
  | p :: ps, c, rs, ks, w, w', hp, h, hks => by
    simp only [PTree.stmtOfL] at hks
    obtain ⟨a, as, ha, has, rfl⟩ := Tree.coreL_cons.mp hks
    simp only [PTree.computeResponseL] at h
    obtain ⟨r0, w1, h1, h⟩ := pm_bind.mp h
    obtain ⟨rs1, w2, h2, h⟩ := pm_bind.mp h
    rw [pm_pure_iff, Prod.mk.injEq] at h
    obtain ⟨rfl, _⟩ := h
    obtain ⟨f1, f2⟩ := responseL_tame hres ps c rs1 as w1 w2 hp.2 h2 has
    refine ⟨by simp [f1], fun i k r hk hr => ?_⟩
    cases i with
    | zero =>
      simp only [List.getElem?_cons_zero, Option.some.injEq] at hk hr
      subst hk; subst hr
      exact response_tame hres p c _ _ _ _ hp.1 h1 ha
    | succ i => exact f2 i k r (by simpa using hk) (by simpa using hr)
end

theorem setup_tame
    (hsim : ∀ (t : Tree L) (k : Core E), Tree.core t = some k → ∀ (w w' : World) (d : Option (Dict Int)) (c : Option Int)
      (sim : Sim E), Tree.simulate t d c w = .ok (sim, w') → SimTame k sim c)
    (hch : ∀ (t : Tree L) (w w' : World) (d : Option (Dict Int)) (sim : Sim E), Tree.simulate t d none w = .ok (sim, w') →
      0 ≤ sim.challenge ∧ sim.challenge < 2 ^ 128)
    (idx : Nat) : ∀ (ts : List (Tree L)) (index : Nat) (ts' : List (Tree L)) (sims : List (Sim E)) (w w' : World),
    PTree.setupSimulations idx ts index w = .ok ((ts', sims), w') →
    (∀ sim ∈ sims, 0 ≤ sim.challenge ∧ sim.challenge < 2 ^ 128) ∧
    ∀ (j : Nat) (t : Tree L) (k : Core E) (sim : Sim E), index + j ≠ idx → ts'[j]? = some t →
      sims[if index + j > idx ∧ index ≤ idx then j - 1 else j]? = some sim → Tree.core t = some k → Ranged k sim.responses
  | [], index, ts', sims, w, w', h => by
    simp only [PTree.setupSimulations, pm_pure_iff, Prod.mk.injEq] at h
    obtain ⟨⟨rfl, rfl⟩, _⟩ := h
    simp
  | t :: ts, index, ts', sims, w, w', h => by
    simp only [PTree.setupSimulations] at h
    split at h
    · rename_i hi
      obtain ⟨⟨ts1, sims1⟩, w1, h1, h⟩ := pm_bind.mp h
      rw [pm_pure_iff, Prod.mk.injEq, Prod.mk.injEq] at h
      obtain ⟨⟨rfl, rfl⟩, _⟩ := h
      obtain ⟨e1, e2⟩ := setup_tame hsim hch idx ts (index + 1) ts1 sims1 w w1 h1
      refine ⟨e1, fun j u k sim hj hu hs hk => ?_⟩
      cases j with
      | zero => exact absurd (by omega) hj
      | succ j =>
        refine e2 j u k sim (by omega) (by simpa using hu) ?_ hk
        rw [if_pos (by omega)] at hs
        rw [if_neg (by omega)]
        exact hs
    · rename_i hi
      obtain ⟨t1, w1, h1, h⟩ := pm_bind.mp h
      obtain ⟨s1, w2, h2, h⟩ := pm_bind.mp h
      obtain ⟨⟨ts1, sims1⟩, w3, h3, h⟩ := pm_bind.mp h
      rw [pm_pure_iff, Prod.mk.injEq, Prod.mk.injEq] at h
      obtain ⟨⟨rfl, rfl⟩, _⟩ := h
      obtain ⟨e1, e2⟩ := setup_tame hsim hch idx ts (index + 1) ts1 sims1 w2 w3 h3
      refine ⟨fun sim hs => ?_, fun j u k sim hj hu hs hk => ?_⟩
      · rcases List.mem_cons.mp hs with rfl | hs
        · exact hch _ _ _ _ _ h2
        · exact e1 sim hs
      · cases j with
        | zero =>
          simp only [List.getElem?_cons_zero, Option.some.injEq] at hu
          subst hu
          rw [if_neg (by omega)] at hs
          simp only [List.getElem?_cons_zero, Option.some.injEq] at hs
          subst hs
          exact (hsim _ k hk _ _ _ _ _ h2).2.2
        | succ j =>
          refine e2 j u k sim (by omega) (by simpa using hu) ?_ hk
          by_cases hc : index + (j + 1) > idx ∧ index ≤ idx
          · rw [if_pos hc] at hs
            rw [if_pos (by omega)]
            have : j + 1 - 1 = (j - 1) + 1 := by omega
            rw [this] at hs
            simpa using hs
          · rw [if_neg hc] at hs
            rw [if_neg (by omega)]
            simpa using hs

/-- The challenge of a simulation that was not given one. -/
theorem simulate_challenge
    (hleaf : ∀ (l : L) (w w' : World) (d : Option (Dict Int)) (sim : Sim E), StmtOps.simulate l d none w = .ok (sim, w') →
      0 ≤ sim.challenge ∧ sim.challenge < 2 ^ 128) :
    ∀ (t : Tree L) (w w' : World) (d : Option (Dict Int)) (sim : Sim E), Tree.simulate t d none w = .ok (sim, w') →
      0 ≤ sim.challenge ∧ sim.challenge < 2 ^ 128 := by
  intro t w w' d sim h
  cases t with
  | leaf l =>
    simp only [Tree.simulate] at h
    exact hleaf l w w' d sim h
  | and s subs =>
    simp only [Tree.simulate] at h
    obtain ⟨d', w1, h1, h⟩ := pm_bind.mp h
    obtain ⟨c', w2, h2, h⟩ := pm_bind.mp h
    obtain ⟨sims, w3, h3, h⟩ := pm_bind.mp h
    rw [pm_pure_iff, Prod.mk.injEq] at h
    obtain ⟨rfl, _⟩ := h
    exact (tame_challengeOrDraw h2).2 rfl
  | or s subs =>
    simp only [Tree.simulate] at h
    obtain ⟨c', w1, h1, h⟩ := pm_bind.mp h
    obtain ⟨sims, w2, h2, h⟩ := pm_bind.mp h
    rw [pm_pure_iff, Prod.mk.injEq] at h
    obtain ⟨rfl, _⟩ := h
    exact (tame_challengeOrDraw h1).2 rfl

theorem orLoop_tame {PL : P → Prop} {ts : List (Tree L)} {d : Dict Int}
    (hK : ∀ t ∈ ts, ∀ (t' : Tree L) (p : PTree E L P) (w w' : World),
      PTree.getProver t d w = .ok ((some p, t'), w') → Tame PL p) :
    ∀ (fuel : Nat) (possible : List Nat) (stmts stmts' : List (Tree L)) (w w' : World)
      (i : Nat) (p : PTree E L P),
    PTree.orLoop (PTree.getProverActs ts d) fuel possible stmts w = .ok ((some (i, p), stmts'), w') → Tame PL p
  | 0, possible, stmts, stmts', w, w', i, p, h => by
    simp [PTree.orLoop, pm_pure_iff] at h
  | fuel + 1, possible, stmts, stmts', w, w', i, p, h => by
    simp only [PTree.orLoop] at h
    split at h
    · simp [pm_pure_iff] at h
    · obtain ⟨j, w1, h1, h⟩ := pm_bind.mp h
      cases ha : (PTree.getProverActs ts d : List (PM (Option (PTree E L P) × Tree L)))[j]? with
      | none => simp only [ha] at h; exact (raise_ne.mp h).elim
      | some act =>
        simp only [ha] at h
        obtain ⟨⟨p?, t'⟩, w2, h2, h⟩ := pm_bind.mp h
        rw [acts_get] at ha
        cases hi : ts[j]? with
        | none => simp [hi] at ha
        | some t =>
          simp only [hi, Option.map_some, Option.some.injEq] at ha
          subst ha
          cases p? with
          | none =>
            simp only at h
            exact orLoop_tame hK fuel _ _ _ _ _ _ _ h
          | some q =>
            simp only at h
            rw [pm_pure_iff, Prod.mk.injEq, Prod.mk.injEq, Option.some.injEq, Prod.mk.injEq] at h
            rw [← h.1.1.2]
            exact hK t (List.mem_of_getElem? hi) t' q w1 w2 h2

theorem getProver_tame {PL : P → Prop}
    (hget : ∀ (l l' : L) (d : Dict Int) (p : P) (w w' : World), ProverOps.getProver l d w = .ok ((some p, l'), w') → PL p)
    (hsim : ∀ (t : Tree L) (k : Core E), Tree.core t = some k → ∀ (w w' : World) (d : Option (Dict Int)) (c : Option Int)
      (sim : Sim E), Tree.simulate t d c w = .ok (sim, w') → SimTame k sim c)
    (hch : ∀ (t : Tree L) (w w' : World) (d : Option (Dict Int)) (sim : Sim E), Tree.simulate t d none w = .ok (sim, w') →
      0 ≤ sim.challenge ∧ sim.challenge < 2 ^ 128) (d : Dict Int) :
    ∀ (t t' : Tree L) (p : PTree E L P) (w w' : World), PTree.getProver t d w = .ok ((some p, t'), w') → Tame PL p := by
  intro t
  induction t using Tree.ind with
  | leaf l =>
    intro t' p w w' h
    simp only [PTree.getProver] at h
    obtain ⟨⟨q?, l'⟩, w1, h1, h⟩ := pm_bind.mp h
    rw [pm_pure_iff, Prod.mk.injEq, Prod.mk.injEq] at h
    cases q? with
    | none => simp at h
    | some q =>
      simp only [Option.map_some, Option.some.injEq] at h
      rw [← h.1.1]
      exact hget l l' d q _ _ h1
  | and s ts ih =>
    intro t' p w w' h
    simp only [PTree.getProver] at h
    rw [pm_getStore_bind, pm_setStore_bind] at h
    split at h
    · simp [pm_pure_iff] at h
    · obtain ⟨⟨ps, ts1⟩, w1, h1, h⟩ := pm_bind.mp h
      have loop : ∀ (us : List (Tree L)), (∀ t ∈ us, t ∈ ts) → ∀ (ps : List (Option (PTree E L P)))
          (us' : List (Tree L)) (w w' : World), PTree.getProverL us d w = .ok ((ps, us'), w') →
          ∀ p, some p ∈ ps → Tame PL p := by
        intro us
        induction us with
        | nil =>
          intro _ ps us' w w' h p hp
          simp only [PTree.getProverL, pm_pure_iff, Prod.mk.injEq] at h
          rw [← h.1.1] at hp
          simp at hp
        | cons u us ihl =>
          intro hm ps us' w w' h p hp
          simp only [PTree.getProverL] at h
          obtain ⟨⟨p1, u1⟩, w1, h1, h⟩ := pm_bind.mp h
          obtain ⟨⟨ps1, us1⟩, w2, h2, h⟩ := pm_bind.mp h
          rw [pm_pure_iff, Prod.mk.injEq, Prod.mk.injEq] at h
          rw [← h.1.1] at hp
          rcases List.mem_cons.mp hp with rfl | hp
          · exact ih u (hm u (by simp)) u1 p w w1 h1
          · exact ihl (fun t ht => hm t (by simp [ht])) ps1 us1 w1 w2 h2 p hp
      cases ha : PTree.allSome ps with
      | none => simp only [ha] at h; exact (raise_ne.mp h).elim
      | some qs =>
        simp only [ha] at h
        rw [pm_pure_iff, Prod.mk.injEq, Prod.mk.injEq, Option.some.injEq] at h
        rw [← h.1.1]
        refine tameL_iff.mpr fun q hq => loop ts (fun _ h => h) ps ts1 _ _ h1 q ?_
        rw [allSome_eq ha]
        exact List.mem_map.mpr ⟨q, hq, rfl⟩
  | or s ts ih =>
    intro t' p w w' h
    simp only [PTree.getProver] at h
    rw [pm_getStore_bind, pm_setStore_bind] at h
    split at h
    · simp [pm_pure_iff] at h
    · obtain ⟨⟨r, ts1⟩, w1, h1, h⟩ := pm_bind.mp h
      cases r with
      | none => simp [pm_pure_iff] at h
      | some ip =>
        obtain ⟨i, q⟩ := ip
        simp only at h
        obtain ⟨⟨ts2, sims⟩, w2, h2, h⟩ := pm_bind.mp h
        rw [pm_pure_iff, Prod.mk.injEq, Prod.mk.injEq, Option.some.injEq] at h
        rw [← h.1.1]
        obtain ⟨e1, e2⟩ := setup_tame hsim hch i ts1 0 ts2 sims w1 w2 h2
        refine ⟨orLoop_tame ih _ _ _ _ _ _ _ _ h1, e1, fun j t k sim hj ht hs hk => ?_⟩
        refine e2 j t k sim (by simpa using hj) ht ?_ hk
        simpa [slotOf] using hs

end

/-! ### Plain statements -/

theorem dlrep_challenge (s : DLRep E) {w w' : World} {d : Option (Dict Int)} {c : Option Int} {sim : Sim E}
    (h : DLRep.simulate s d c w = .ok (sim, w')) :
    (∀ c0, c = some c0 → sim.challenge = c0) ∧ (c = none → 0 ≤ sim.challenge ∧ sim.challenge < 2 ^ 128) := by
  simp only [DLRep.simulate] at h
  obtain ⟨d', w1, _, h⟩ := pm_bind.mp h
  obtain ⟨c', w2, h2, h⟩ := pm_bind.mp h
  rw [pm_getStore_bind] at h
  obtain ⟨rs, _, h⟩ := pm_liftE_bind_iff.mp h
  obtain ⟨com, _, h⟩ := pm_liftE_bind_iff.mp h
  rw [pm_pure_iff, Prod.mk.injEq] at h
  rw [← h.1]
  exact tame_challengeOrDraw h2

theorem simulate_tame_core : ∀ (t k : Core E), Tree.core t = some k → ∀ (w w' : World) (d : Option (Dict Int)) (c : Option Int)
    (sim : Sim E), Tree.simulate t d c w = .ok (sim, w') → SimTame k sim c := by
  refine simulate_tame ?_
  intro s k hk w w' d c sim h
  simp only [StmtView.core, Option.some.injEq] at hk
  subst hk
  obtain ⟨h1, h2⟩ := dlrep_challenge s h
  exact ⟨h1, h2, trivial⟩

theorem challenge_core (t : Core E) (w w' : World) (d : Option (Dict Int)) (sim : Sim E)
    (h : Tree.simulate t d none w = .ok (sim, w')) : 0 ≤ sim.challenge ∧ sim.challenge < 2 ^ 128 :=
  simulate_challenge (fun s _ _ _ _ h => (dlrep_challenge s h).2 rfl) t w w' d sim h

/-- No condition on provers of representations. -/
abbrev TameCore (p : CoreProver E) : Prop := Tame (fun _ => True) p

theorem getProver_tame_core {d : Dict Int} {t t' : Core E} {p : CoreProver E} {w w' : World}
    (h : PTree.getProver t d w = .ok ((some p, t'), w')) : TameCore p :=
  getProver_tame (fun _ _ _ _ _ _ _ => trivial) simulate_tame_core challenge_core d t t' p w w' h

theorem commit_tame_core {p p' : CoreProver E} {d : Option (Dict Int)} {v : Val E} {w w' : World} (hp : TameCore p)
    (h : PTree.internalCommit p d w = .ok ((v, p'), w')) : TameCore p' :=
  commit_tame (fun _ _ _ _ _ _ _ _ => trivial) p p' d v w w' hp h

theorem response_tame_core {p : CoreProver E} {c : Int} {r : Val E} {k : Core E} {w w' : World} (hp : TameCore p)
    (h : PTree.computeResponse p c w = .ok (r, w')) (hk : shape (PTree.stmtOf p) = shape k) : Ranged k r := by
  refine ranged_shape _ _ r ?_ (response_tame (fun q c r k w w' _ _ hk => ?_) p c r _ w w' hp h (core_blank _))
  · rw [← hk]
    exact (core_secrets (core_blank _)).2
  · simp only [StmtView.core, Option.some.injEq] at hk
    subst hk
    trivial

/-! ### General statements -/

/-- The condition on provers of leaves. -/
def LeafTame : LeafProver E → Prop
  | .dlrep _ => True
  | .ext p => ∀ cp, p.constructed = some cp → TameCore cp ∧
      ∀ t, p.stmt.constructed = some t → shape (PTree.stmtOf cp) = shape t

theorem leaf_challenge (l : Leaf E) {w w' : World} {d : Option (Dict Int)} {sim : Sim E}
    (h : StmtOps.simulate l d none w = .ok (sim, w')) : 0 ≤ sim.challenge ∧ sim.challenge < 2 ^ 128 := by
  cases l with
  | dlrep s => exact (dlrep_challenge s h).2 rfl
  | ext s =>
    simp only [StmtOps.simulate, Ext.simulate] at h
    obtain ⟨t', ht', h⟩ := pm_liftE_bind_iff.mp h
    obtain ⟨tr, w1, h1, h⟩ := pm_bind.mp h
    rw [pm_pure_iff, Prod.mk.injEq] at h
    rw [← h.1]
    have := challenge_core t' _ _ _ _ h1
    exact this

theorem simulate_tame_stmt : ∀ (t : Stmt E) (k : Core E), Tree.core t = some k → ∀ (w w' : World) (d : Option (Dict Int)) (c : Option Int)
    (sim : Sim E), Tree.simulate t d c w = .ok (sim, w') → SimTame k sim c := by
  refine simulate_tame ?_
  intro l k hk w w' d c sim h
  cases l with
  | dlrep s =>
    simp only [StmtView.core, Option.some.injEq] at hk
    subst hk
    obtain ⟨h1, h2⟩ := dlrep_challenge s h
    exact ⟨h1, h2, trivial⟩
  | ext s =>
    simp only [StmtView.core, Option.bind_eq_some_iff] at hk
    obtain ⟨t, ht, hk⟩ := hk
    simp only [StmtOps.simulate, Ext.simulate] at h
    obtain ⟨t', ht', h⟩ := pm_liftE_bind_iff.mp h
    simp only [Ext.inner, ht, Except.ok.injEq] at ht'
    subst ht'
    obtain ⟨tr, w1, h1, h⟩ := pm_bind.mp h
    rw [pm_pure_iff, Prod.mk.injEq] at h
    rw [← h.1]
    have := simulate_tame_core t k hk _ _ _ _ _ h1
    exact this

abbrev TameStmt (p : StmtProver E) : Prop := Tame LeafTame p

theorem getProver_tame_stmt {d : Dict Int} {t t' : Stmt E} {p : StmtProver E} {w w' : World}
    (h : PTree.getProver t d w = .ok ((some p, t'), w')) : TameStmt p := by
  refine getProver_tame (fun l l' d p w w' h => ?_) simulate_tame_stmt
    (simulate_challenge fun l _ _ _ _ h => leaf_challenge l h) d t t' p w w' h
  cases l with
  | dlrep s =>
    simp only [ProverOps.getProver] at h
    obtain ⟨⟨q?, s'⟩, w1, h1, h⟩ := pm_bind.mp h
    rw [pm_pure_iff, Prod.mk.injEq, Prod.mk.injEq] at h
    cases q? with
    | none => simp at h
    | some q =>
      simp only [Option.map_some, Option.some.injEq] at h
      rw [← h.1.1]
      trivial
  | ext s =>
    simp only [ProverOps.getProver, ExtProver.getProver] at h
    obtain ⟨⟨q?, s'⟩, w1, h1, h⟩ := pm_bind.mp h
    rw [pm_getStore_bind, pm_setStore_bind, pm_pure_iff, Prod.mk.injEq, Prod.mk.injEq] at h1
    rw [pm_pure_iff, Prod.mk.injEq, Prod.mk.injEq, ← h1.1.1] at h
    simp only [Option.map_some, Option.some.injEq] at h
    rw [← h.1.1]
    intro cp hcp
    simp at hcp

theorem precommit_tame_stmt {p p' : StmtProver E} {v : Val E} {w w' : World} (hp : TameStmt p)
    (h : PTree.precommit p w = .ok ((v, p'), w')) : TameStmt p' := by
  refine precommit_tame (fun p p' v w w' hp h => ?_) p p' v w w' hp h
  cases p with
  | dlrep q =>
    simp only [ProverOps.precommit, pm_pure_iff, Prod.mk.injEq] at h
    rw [← h.1.2]
    trivial
  | ext q =>
    simp only [ProverOps.precommit, ExtProver.precommit] at h
    obtain ⟨⟨v1, q1⟩, w1, h1, h⟩ := pm_bind.mp h
    rw [pm_pure_iff, Prod.mk.injEq, Prod.mk.injEq] at h
    rw [← h.1.2]
    obtain ⟨v2, w2, _, h1⟩ := pm_bind.mp h1
    rw [pm_getStore_bind] at h1
    obtain ⟨s', _, h1⟩ := pm_liftE_bind_iff.mp h1
    obtain ⟨t, _, h1⟩ := pm_liftE_bind_iff.mp h1
    obtain ⟨⟨cp, t'⟩, w3, h3, h1⟩ := pm_bind.mp h1
    rw [pm_pure_iff, Prod.mk.injEq, Prod.mk.injEq] at h1
    rw [← h1.1.2]
    intro cp' hcp
    simp only at hcp
    subst hcp
    refine ⟨getProver_tame_core h3, fun u hu => ?_⟩
    simp only [Option.some.injEq] at hu
    subst hu
    obtain ⟨k1, k2⟩ := getProver_keeps keepCore _ _ _ _ _ _ h3
    exact (shape_blank _ _ ((k2 cp' rfl).trans k1.symm)).1

theorem commit_tame_stmt {p p' : StmtProver E} {d : Option (Dict Int)} {v : Val E} {w w' : World} (hp : TameStmt p)
    (h : PTree.internalCommit p d w = .ok ((v, p'), w')) : TameStmt p' := by
  refine commit_tame (fun p p' d v w w' hp h => ?_) p p' d v w w' hp h
  cases p with
  | dlrep q =>
    simp only [ProverOps.internalCommit] at h
    obtain ⟨⟨v1, q1⟩, w1, h1, h⟩ := pm_bind.mp h
    rw [pm_pure_iff, Prod.mk.injEq, Prod.mk.injEq] at h
    rw [← h.1.2]
    trivial
  | ext q =>
    simp only [ProverOps.internalCommit, ExtProver.internalCommit] at h
    obtain ⟨⟨v1, q1⟩, w1, h1, h⟩ := pm_bind.mp h
    rw [pm_pure_iff, Prod.mk.injEq, Prod.mk.injEq] at h
    rw [← h.1.2]
    cases hst : q.stmt.constructed with
    | none => simp only [hst] at h1; exact (raise_ne.mp h1).elim
    | some t0 =>
      cases hcp : q.constructed with
      | none => simp only [hst, hcp] at h1; exact (raise_ne.mp h1).elim
      | some cp =>
        simp only [hst, hcp] at h1
        obtain ⟨⟨v2, cp'⟩, w2, h2, h1⟩ := pm_bind.mp h1
        rw [pm_pure_iff, Prod.mk.injEq, Prod.mk.injEq] at h1
        rw [← h1.1.2]
        obtain ⟨g1, g2⟩ := hp cp hcp
        intro cp2 hcp2
        simp only [Option.some.injEq] at hcp2
        subst hcp2
        refine ⟨commit_tame_core g1 h2, fun t ht => ?_⟩
        rw [← g2 t ht]
        exact (shape_blank _ _ (commit_keeps keepCore _ _ _ _ _ _ h2)).1

theorem response_tame_stmt {p : StmtProver E} {c : Int} {r : Val E} {k : Core E} {w w' : World} (hp : TameStmt p)
    (h : PTree.computeResponse p c w = .ok (r, w')) (hk : Tree.core (PTree.stmtOf p) = some k) : Ranged k r := by
  refine response_tame (fun q c r k w w' hq h hk => ?_) p c r _ w w' hp h hk
  cases q with
  | dlrep q =>
    simp only [ProverOps.stmtOf, StmtView.core, Option.some.injEq] at hk
    subst hk
    trivial
  | ext q =>
    simp only [ProverOps.stmtOf, StmtView.core, Option.bind_eq_some_iff] at hk
    obtain ⟨t, ht, hk⟩ := hk
    simp only [ProverOps.computeResponse, ExtProver.computeResponse] at h
    cases hcp : q.constructed with
    | none => simp only [hcp] at h; exact (raise_ne.mp h).elim
    | some cp =>
      simp only [hcp] at h
      obtain ⟨g1, g2⟩ := hq cp hcp
      exact response_tame_core g1 h ((g2 t ht).trans (core_secrets hk).2.symm)

end Zksk
