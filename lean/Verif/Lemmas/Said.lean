import Verif.SpecLeak
import Verif.Lemmas.Signs
import Verif.Lemmas.State

/-! The precommitments of disjunctions. -/

set_option linter.unusedSectionVars false

namespace Zksk

open Spec

variable {E : Type} [AddCommGroup E] [DecidableEq E]

/-! ### Shapes -/

theorem blank_rep {t : Stmt E} {s : DLRep E} (h : Tree.blank t = Tree.blank (.leaf (.dlrep s) : Stmt E)) :
    ∃ s', t = .leaf (.dlrep s') := by
  cases t with
  | leaf l =>
    cases l with
    | dlrep s' => exact ⟨s', rfl⟩
    | ext e => simp only [Tree.blank] at h; injection h with h; cases h
  | and b subs => simp only [Tree.blank] at h; cases h
  | or b subs => simp only [Tree.blank] at h; cases h

theorem blankL_rep {ts us : List (Stmt E)} (h : Tree.blankL ts = Tree.blankL us)
    (hu : ∀ t ∈ us, ∃ s, t = .leaf (.dlrep s)) : ∀ t ∈ ts, ∃ s, t = .leaf (.dlrep s) := by
  intro t ht
  obtain ⟨i, hi⟩ := List.mem_iff_getElem?.mp ht
  obtain ⟨u, hu1, hb⟩ := blankL_nth h.symm hi
  obtain ⟨s, rfl⟩ := hu u (List.mem_of_getElem? hu1)
  exact blank_rep hb.symm

theorem blank_composed {t u : Stmt E} (h : Tree.blank t = Tree.blank u) (hu : Composed u) : Composed t := by
  have key : ∀ {ts us : List (Stmt E)}, Tree.blankL ts = Tree.blankL us → us ≠ [] → ts ≠ [] := by
    intro ts us h h1 h2
    subst h2
    cases us with
    | nil => exact h1 rfl
    | cons a us => simp only [Tree.blankL] at h; cases h
  cases u with
  | leaf l => exact hu.elim
  | and b us =>
    cases t with
    | leaf l => simp only [Tree.blank] at h; cases h
    | and b' ts => simp only [Tree.blank] at h; injection h with _ h; exact key h hu
    | or b' ts => simp only [Tree.blank] at h; cases h
  | or b us =>
    cases t with
    | leaf l => simp only [Tree.blank] at h; cases h
    | and b' ts => simp only [Tree.blank] at h; cases h
    | or b' ts => simp only [Tree.blank] at h; injection h with _ h; exact key h hu

/-! ### Simulated clauses -/

theorem simulateAnd_length {d : Dict Int} {c : Int} : ∀ (ts : List (Stmt E)) (sims : List (Sim E)) (w w' : World),
    Tree.simulateAnd ts d c w = .ok (sims, w') → sims.length = ts.length
  | [], sims, w, w', h => by
    simp only [Tree.simulateAnd, pm_pure_iff, Prod.mk.injEq] at h
    rw [← h.1]; rfl
  | t :: ts, sims, w, w', h => by
    simp only [Tree.simulateAnd] at h
    obtain ⟨s, w1, _, h⟩ := pm_bind.mp h
    obtain ⟨ss, w2, h2, h⟩ := pm_bind.mp h
    rw [pm_pure_iff, Prod.mk.injEq] at h
    rw [← h.1, List.length_cons, List.length_cons, simulateAnd_length ts ss _ _ h2]

theorem simulateOr_length {c : Int} : ∀ (ts : List (Stmt E)) (acc : List Int) (sims : List (Sim E)) (w w' : World),
    Tree.simulateOr ts c acc w = .ok (sims, w') → sims.length = ts.length
  | [], acc, sims, w, w', h => by
    simp only [Tree.simulateOr, pm_pure_iff, Prod.mk.injEq] at h
    rw [← h.1]; rfl
  | [t], acc, sims, w, w', h => by
    simp only [Tree.simulateOr] at h
    obtain ⟨s, w1, _, h⟩ := pm_bind.mp h
    rw [pm_pure_iff, Prod.mk.injEq] at h
    rw [← h.1]; rfl
  | t :: u :: ts, acc, sims, w, w', h => by
    simp only [Tree.simulateOr] at h
    obtain ⟨s, w1, _, h⟩ := pm_bind.mp h
    obtain ⟨ss, w2, h2, h⟩ := pm_bind.mp h
    rw [pm_pure_iff, Prod.mk.injEq] at h
    rw [← h.1, List.length_cons, simulateOr_length (u :: ts) _ ss _ _ h2]; rfl

theorem simulate_composed {t : Stmt E} (ht : Composed t) {d : Option (Dict Int)} {c : Option Int} {w w' : World}
    {sim : Sim E} (h : Tree.simulate t d c w = .ok (sim, w')) :
    ∃ v vs, sim.precommitment = .list (v :: vs) := by
  have key : ∀ {ts : List (Stmt E)} {sims : List (Sim E)}, ts ≠ [] → sims.length = ts.length →
      ∃ v vs, Val.list (sims.map Sim.precommitment) = .list (v :: vs) := by
    intro ts sims h1 h2
    cases sims with
    | nil => exact (h1 (List.length_eq_zero_iff.mp h2.symm)).elim
    | cons s ss => exact ⟨_, _, rfl⟩
  cases t with
  | leaf l => exact ht.elim
  | and b ts =>
    simp only [Tree.simulate] at h
    obtain ⟨d', w1, _, h⟩ := pm_bind.mp h
    obtain ⟨c', w2, _, h⟩ := pm_bind.mp h
    obtain ⟨sims, w3, h3, h⟩ := pm_bind.mp h
    rw [pm_pure_iff, Prod.mk.injEq] at h
    rw [← h.1]
    exact key ht (simulateAnd_length _ _ _ _ h3)
  | or b ts =>
    simp only [Tree.simulate] at h
    obtain ⟨c', w2, _, h⟩ := pm_bind.mp h
    obtain ⟨sims, w3, h3, h⟩ := pm_bind.mp h
    rw [pm_pure_iff, Prod.mk.injEq] at h
    rw [← h.1]
    exact key ht (simulateOr_length _ _ _ _ _ h3)

theorem simulate_rep {s : DLRep E} {d : Option (Dict Int)} {c : Option Int} {w w' : World}
    {sim : Sim E} (h : Tree.simulate (.leaf (.dlrep s) : Stmt E) d c w = .ok (sim, w')) : sim.precommitment = .none := by
  simp only [Tree.simulate, StmtOps.simulate, DLRep.simulate] at h
  obtain ⟨_, w2, _, h⟩ := pm_bind.mp h
  obtain ⟨c, w1, h1, h⟩ := pm_bind.mp h
  rw [pm_getStore_bind, pm_liftE_bind_iff] at h
  obtain ⟨_, _, h⟩ := h
  rw [pm_liftE_bind_iff] at h
  obtain ⟨_, _, h⟩ := h
  rw [pm_pure_iff, Prod.mk.injEq] at h
  rw [← h.1]

/-- Each clause but one has a simulation. -/
theorem setup_each {idx : Nat} : ∀ (ts : List (Stmt E)) (index : Nat) (w w' : World) (ts' : List (Stmt E))
    (sims : List (Sim E)), PTree.setupSimulations idx ts index w = .ok ((ts', sims), w') →
    ts'.length = ts.length ∧
    sims.length + (if index ≤ idx ∧ idx < index + ts.length then 1 else 0) = ts.length ∧
    (∀ sim ∈ sims, ∃ u u' w1 w2, u ∈ ts ∧ Tree.blank u' = Tree.blank u ∧
      Tree.simulate u' none none w1 = .ok (sim, w2)) ∧
    (∀ (j : Nat) u, ts[j]? = some u → index + j ≠ idx →
      ∃ sim u' w1 w2, sims[if index ≤ idx ∧ idx < index + j then j - 1 else j]? = some sim ∧
        Tree.blank u' = Tree.blank u ∧ Tree.simulate u' none none w1 = .ok (sim, w2))
  | [], index, w, w', ts', sims, h => by
    simp only [PTree.setupSimulations, pm_pure_iff, Prod.mk.injEq] at h
    rw [← h.1.1, ← h.1.2]
    refine ⟨rfl, ?_, by simp, by simp⟩
    rw [if_neg (by simp only [List.length_nil]; omega)]; rfl
  | t :: ts, index, w, w', ts', sims, h => by
    simp only [PTree.setupSimulations] at h
    split at h
    · rename_i he
      obtain ⟨⟨ts1, sims1⟩, w1, h1, h⟩ := pm_bind.mp h
      rw [pm_pure_iff, Prod.mk.injEq, Prod.mk.injEq] at h
      rw [← h.1.1, ← h.1.2]
      obtain ⟨e0, e1, e2, e3⟩ := setup_each ts _ _ _ _ _ h1
      rw [if_neg (by omega)] at e1
      refine ⟨by simp [e0], ?_, ?_, ?_⟩
      · rw [if_pos (by simp only [List.length_cons]; omega), List.length_cons]; simp only; omega
      · intro sim hs
        obtain ⟨u, u', a, b, k1, k2, k3⟩ := e2 sim hs
        exact ⟨u, u', a, b, by simp [k1], k2, k3⟩
      · intro j u hj hne
        cases j with
        | zero => exact (hne (by omega)).elim
        | succ j =>
          rw [List.getElem?_cons_succ] at hj
          obtain ⟨sim, u', a, b, k1, k2, k3⟩ := e3 j u hj (by omega)
          refine ⟨sim, u', a, b, ?_, k2, k3⟩
          rw [if_neg (by omega)] at k1
          rw [if_pos (by omega)]
          exact k1
    · rename_i he
      obtain ⟨t1, w1, h1, h⟩ := pm_bind.mp h
      obtain ⟨s, w2, h2, h⟩ := pm_bind.mp h
      obtain ⟨⟨ts1, sims1⟩, w3, h3, h⟩ := pm_bind.mp h
      rw [pm_pure_iff, Prod.mk.injEq, Prod.mk.injEq] at h
      rw [← h.1.1, ← h.1.2]
      have hb := prepare_keeps keepLeaf t t1 _ _ h1
      obtain ⟨e0, e1, e2, e3⟩ := setup_each ts _ _ _ _ _ h3
      refine ⟨by simp [e0], ?_, ?_, ?_⟩
      · rw [List.length_cons, List.length_cons]
        by_cases hc : index + 1 ≤ idx ∧ idx < index + 1 + ts.length
        · rw [if_pos hc] at e1; rw [if_pos (by omega)]; simp only; omega
        · rw [if_neg hc] at e1; rw [if_neg (by omega)]; simp only; omega
      · intro sim hs
        rcases List.mem_cons.mp hs with rfl | hs
        · exact ⟨t, t1, w1, w2, by simp, hb, h2⟩
        · obtain ⟨u, u', a, b, k1, k2, k3⟩ := e2 sim hs
          exact ⟨u, u', a, b, by simp [k1], k2, k3⟩
      · intro j u hj hne
        cases j with
        | zero =>
          rw [List.getElem?_cons_zero, Option.some.injEq] at hj
          subst hj
          refine ⟨s, t1, w1, w2, ?_, hb, h2⟩
          rw [if_neg (by omega)]; rfl
        | succ j =>
          rw [List.getElem?_cons_succ] at hj
          obtain ⟨sim, u', a, b, k1, k2, k3⟩ := e3 j u hj (by omega)
          refine ⟨sim, u', a, b, ?_, k2, k3⟩
          by_cases hc : index + 1 ≤ idx ∧ idx < index + 1 + j
          · rw [if_pos hc] at k1
            rw [if_pos (by omega)]
            cases j with
            | zero => omega
            | succ j => exact k1
          · rw [if_neg hc] at k1
            rw [if_neg (by omega)]
            exact k1

/-! ### The proved clause -/

/-- The prover of a disjunction: the chosen clause and the simulations. -/
theorem getProver_or_parts {b : Bool} {subs : List (Stmt E)} {d : Dict Int} {w w' : World} {p : StmtProver E}
    {t' : Stmt E} (h : PTree.getProver (.or b subs) d w = .ok ((some p, t'), w')) :
    ∃ (i : Nat) (u : Stmt E) (stmts : List (Stmt E)) (sub : StmtProver E) (sims : List (Sim E)) (w1 w2 : World) (u' : Stmt E),
      p = .or false i stmts sub sims ∧ subs[i]? = some u ∧ u.simulated = false ∧
      PTree.getProver u d w1 = .ok ((some sub, u'), w2) ∧ stmts.length = subs.length ∧
      sims.length + 1 = subs.length ∧
      (∀ sim ∈ sims, ∃ v v' w1 w2, v ∈ subs ∧ Tree.blank v' = Tree.blank v ∧
        Tree.simulate v' none none w1 = .ok (sim, w2)) ∧
      (∀ (j : Nat) v, subs[j]? = some v → j ≠ i →
        ∃ sim v' w1 w2, sims[if i < j then j - 1 else j]? = some sim ∧
          Tree.blank v' = Tree.blank v ∧ Tree.simulate v' none none w1 = .ok (sim, w2)) := by
  have h0 := h
  rcases getProver_or_cases (J := fun _ => True) (fun _ _ _ _ _ _ _ => trivial) trivial h with ⟨_, h0⟩ | ⟨_, h0, _⟩ |
    ⟨rfl, i, u, stmts, sub, sims, w3, w4, t2, g1, g2, g3, g4, g5⟩
  · cases h0
  · cases h0
  · cases g5
    have hi : i < subs.length := (List.getElem?_eq_some_iff.mp g1).1
    simp only [PTree.getProver] at h0
    rw [pm_getStore_bind, pm_setStore_bind] at h0
    simp only [Bool.false_eq_true, if_false] at h0
    obtain ⟨⟨r, subs'⟩, w5, k1, k2⟩ := pm_bind.mp h0
    have hl1 := orLoop_length _ _ _ _ _ _ _ k1
    have hk := (orLoop_keeps (fun t _ => getProver_keeps keepLeaf d t) _ _ _ _ _ _ _ rfl k1).1
    cases r with
    | none =>
      simp only at k2
      rw [pm_pure_iff, Prod.mk.injEq, Prod.mk.injEq] at k2
      cases k2.1.1
    | some ip =>
      obtain ⟨i', sub'⟩ := ip
      simp only at k2
      obtain ⟨⟨stmts', sims'⟩, w6, k3, k2⟩ := pm_bind.mp k2
      rw [pm_pure_iff, Prod.mk.injEq, Prod.mk.injEq] at k2
      have := k2.1.1
      simp only [Option.some.injEq, PTree.or.injEq] at this
      obtain ⟨_, rfl, rfl, rfl, rfl⟩ := this
      obtain ⟨e0, e1, e2, e3⟩ := setup_each _ _ _ _ _ _ k3
      rw [if_pos (by omega)] at e1
      refine ⟨i', u, stmts', sub', sims', w3, w4, t2, rfl, g1, g2, g4, by omega, by omega, ?_, ?_⟩
      · intro sim hs
        obtain ⟨v, v', a, b, m1, m2, m3⟩ := e2 sim hs
        obtain ⟨n, hn⟩ := List.mem_iff_getElem?.mp m1
        obtain ⟨x, hx, hxb⟩ := blankL_nth hk.symm hn
        exact ⟨x, v', a, b, List.mem_of_getElem? hx, m2.trans hxb.symm, m3⟩
      · intro j v hj hne
        obtain ⟨x, hx, hxb⟩ := blankL_nth hk hj
        obtain ⟨sim, v', a, b, m1, m2, m3⟩ := e3 j x hx (by omega)
        refine ⟨sim, v', a, b, ?_, m2.trans hxb, m3⟩
        by_cases hc : i' < j
        · rw [if_pos hc]; rw [if_pos (by omega)] at m1; exact m1
        · rw [if_neg hc]; rw [if_neg (by omega)] at m1; exact m1

theorem precommit_or {i : Nat} {stmts : List (Stmt E)} {sub p' : StmtProver E} {sims : List (Sim E)} {b : Bool} {v : Val E}
    {w w' : World} (h : PTree.precommit (.or b i stmts sub sims) w = .ok ((v, p'), w'))
    (h1 : sims.length + 1 = stmts.length) (hi : i < stmts.length) :
    ∃ x sub' w1, PTree.precommit sub w = .ok ((x, sub'), w1) ∧
      v = if ((sims.map Sim.precommitment).insertIdx i x).any Val.truthy
        then .list ((sims.map Sim.precommitment).insertIdx i x) else .none := by
  simp only [PTree.precommit] at h
  obtain ⟨⟨x, sub'⟩, w1, h2, h⟩ := pm_bind.mp h
  simp only at h
  rw [pm_liftE_bind_iff] at h
  obtain ⟨vs, h3, h⟩ := h
  rw [pm_pure_iff, Prod.mk.injEq, Prod.mk.injEq] at h
  have ho := orSlots_eq i x (sims.map Sim.precommitment) (by rw [List.length_map]; omega)
  rw [List.length_map, h1, h3] at ho
  have := Except.ok.inj ho
  subst this
  exact ⟨x, sub', w1, h2, h.1.1.symm⟩

/-- Somebody who proves a plain composition says nothing in the precommitment. -/
theorem precommit_plain (d : Dict Int) {t : Stmt E} (ht : Unadorned t) : ∀ (p : StmtProver E) (t' : Stmt E) (w w' : World),
    PTree.getProver t d w = .ok ((some p, t'), w') → ∀ (v : Val E) (p' : StmtProver E) (w1 w2 : World),
    PTree.precommit p w1 = .ok ((v, p'), w2) → v = .none := by
  have rep : ∀ (s : DLRep E) (p : StmtProver E) (t' : Stmt E) (w w' : World),
      PTree.getProver (.leaf (.dlrep s)) d w = .ok ((some p, t'), w') → ∀ (v : Val E) (p' : StmtProver E) (w1 w2 : World),
      PTree.precommit p w1 = .ok ((v, p'), w2) → v = .none := by
    intro s p t' w w' h v p' w1 w2 h1
    simp only [PTree.getProver, ProverOps.getProver] at h
    obtain ⟨⟨q?, l'⟩, w3, h2, h⟩ := pm_bind.mp h
    obtain ⟨⟨q0, l0⟩, w4, h3, h2⟩ := pm_bind.mp h2
    rw [pm_pure_iff, Prod.mk.injEq, Prod.mk.injEq] at h h2
    cases q0 with
    | none =>
      have := h2.1.1
      subst this
      simp at h
    | some q =>
      have := h2.1.1
      subst this
      simp only [Option.map_some, Option.some.injEq] at h
      rw [← h.1.1] at h1
      simp only [PTree.precommit, ProverOps.precommit] at h1
      obtain ⟨⟨x, y⟩, w5, h5, h1⟩ := pm_bind.mp h1
      rw [pm_pure_iff, Prod.mk.injEq, Prod.mk.injEq] at h1 h5
      rw [← h1.1.1]
      exact h5.1.1.symm
  induction ht with
  | rep s => exact rep s
  | all b subs _ ih =>
    intro p t' w w' h v p' w1 w2 h1
    simp only [PTree.getProver] at h
    rw [pm_getStore_bind, pm_setStore_bind] at h
    cases b with
    | true =>
      simp only [if_true] at h
      rw [pm_pure_iff, Prod.mk.injEq, Prod.mk.injEq] at h
      cases h.1.1
    | false =>
      simp only [Bool.false_eq_true, if_false] at h
      obtain ⟨⟨ps, subs'⟩, w3, h3, h⟩ := pm_bind.mp h
      simp only at h
      cases ha : PTree.allSome ps with
      | none => simp only [ha] at h; exact (raise_ne.mp h).elim
      | some qs =>
        simp only [ha] at h
        rw [pm_pure_iff, Prod.mk.injEq, Prod.mk.injEq] at h
        have := h.1.1
        simp only [Option.some.injEq] at this
        subst this
        have mute : ∀ (ts ts' : List (Stmt E)) (ps : List (Option (StmtProver E))) (qs : List (StmtProver E)) (w w' : World),
            (∀ t ∈ ts, t ∈ subs) → PTree.getProverL ts d w = .ok ((ps, ts'), w') → PTree.allSome ps = some qs →
            ∀ q ∈ qs, ∀ (v : Val E) (p' : StmtProver E) (w1 w2 : World),
              PTree.precommit q w1 = .ok ((v, p'), w2) → v = .none := by
          intro ts
          induction ts with
          | nil =>
            intro ts' ps qs w w' _ h hq
            simp only [PTree.getProverL, pm_pure_iff, Prod.mk.injEq] at h
            rw [← h.1.1] at hq
            simp only [PTree.allSome, Option.some.injEq] at hq
            subst hq
            simp
          | cons t ts iht =>
            intro ts' ps qs w w' hm h hq
            simp only [PTree.getProverL] at h
            obtain ⟨⟨q?, u1⟩, w2, h2, h⟩ := pm_bind.mp h
            obtain ⟨⟨qs1, us1⟩, w3, h3, h⟩ := pm_bind.mp h
            rw [pm_pure_iff, Prod.mk.injEq, Prod.mk.injEq] at h
            rw [← h.1.1] at hq
            cases q? with
            | none => simp [PTree.allSome] at hq
            | some q =>
              simp only [PTree.allSome, Option.map_eq_some_iff] at hq
              obtain ⟨ps1, hps1, rfl⟩ := hq
              intro x hx
              rcases List.mem_cons.mp hx with rfl | hx
              · exact ih t (hm t (by simp)) _ _ _ _ h2
              · exact iht _ _ _ _ _ (fun t ht => hm t (by simp [ht])) h3 hps1 x hx
        have hq := mute subs subs' ps qs _ _ (fun _ h => h) h3 ha
        simp only [PTree.precommit] at h1
        obtain ⟨⟨vs, qs'⟩, w4, h4, h1⟩ := pm_bind.mp h1
        rw [pm_pure_iff, Prod.mk.injEq, Prod.mk.injEq] at h1
        rw [← h1.1.1]
        have loop : ∀ (qs qs' : List (StmtProver E)) (vs : List (Val E)) (w w' : World),
            (∀ q ∈ qs, ∀ (v : Val E) (p' : StmtProver E) (w1 w2 : World),
              PTree.precommit q w1 = .ok ((v, p'), w2) → v = .none) →
            PTree.precommitL qs w = .ok ((vs, qs'), w') → vs.all Val.isNone = true := by
          intro qs
          induction qs with
          | nil =>
            intro qs' vs w w' _ h
            simp only [PTree.precommitL, pm_pure_iff, Prod.mk.injEq] at h
            rw [← h.1.1]; rfl
          | cons q qs ihq =>
            intro qs' vs w w' hm h
            simp only [PTree.precommitL] at h
            obtain ⟨⟨x, q1⟩, w2, h2, h⟩ := pm_bind.mp h
            obtain ⟨⟨xs, qs1⟩, w3, h3, h⟩ := pm_bind.mp h
            rw [pm_pure_iff, Prod.mk.injEq, Prod.mk.injEq] at h
            rw [← h.1.1, List.all_cons, hm q (by simp) _ _ _ _ h2,
              ihq _ _ _ _ (fun q hq => hm q (by simp [hq])) h3]
            rfl
        simp only [PTree.andPrecommitment, loop _ _ _ _ _ hq h4, if_true]
  | any b subs hs =>
    intro p t' w w' h v p' w1 w2 h1
    obtain ⟨i, u, stmts, sub, sims, w3, w4, u', rfl, g1, _, g3, g4, g5, g6, _⟩ := getProver_or_parts h
    have hi : i < subs.length := (List.getElem?_eq_some_iff.mp g1).1
    obtain ⟨x, sub', w5, h5, rfl⟩ := precommit_or h1 (by omega) (by omega)
    obtain ⟨s, rfl⟩ := hs u (List.mem_of_getElem? g1)
    have hx := rep s _ _ _ _ g3 _ _ _ _ h5
    subst hx
    have : ((sims.map Sim.precommitment).insertIdx i Val.none).any Val.truthy = false := by
      rw [List.any_eq_false]
      intro y hy
      rcases List.eq_or_mem_of_mem_insertIdx hy with rfl | hy
      · simp [Val.truthy]
      · obtain ⟨sim, hsim, rfl⟩ := List.mem_map.mp hy
        obtain ⟨v, v', a, b, m1, m2, m3⟩ := g6 sim hsim
        obtain ⟨s1, rfl⟩ := hs v m1
        obtain ⟨s2, rfl⟩ := blank_rep m2
        rw [simulate_rep m3]
        simp [Val.truthy]
    rw [this]; rfl

/-- The precommitment of an honest proof of a disjunction. -/
theorem said_parts {env : Env E} {s : Bool} {subs : List (Stmt E)} {d : Dict Int} {msg : String}
    {nizk : NIZK E} {t' : Stmt E} {w w' : World}
    (h : prove (LeafProver E) env (.or s subs) d msg w = .ok ((nizk, t'), w')) :
    ∃ (i : Nat) (u : Stmt E) (w1 w2 : World) (sub : StmtProver E) (u' : Stmt E) (cs : List Int) (rs : List (Val E)),
      subs[i]? = some u ∧ u.simulated = false ∧ PTree.getProver u d w1 = .ok ((some sub, u'), w2) ∧
      nizk.responses = .tuple [.list (cs.map Val.int), .list rs] ∧ OrSigns subs.length i nizk.challenge cs ∧
      ∀ (j : Nat) v, subs[j]? = some v → Unadorned v →
        (j = i → saidOf nizk.precommitment j = .none) ∧
        (j ≠ i → Composed v → ∃ x xs, saidOf nizk.precommitment j = .list (x :: xs)) := by
  unfold prove at h
  obtain ⟨⟨p?, t1⟩, w1, h1, h⟩ := pm_bind.mp h
  cases p? with
  | none => exact (raise_ne.mp h).elim
  | some p =>
    simp only at h
    obtain ⟨⟨n, p'⟩, w2, h2, h⟩ := pm_bind.mp h
    rw [pm_pure_iff, Prod.mk.injEq, Prod.mk.injEq] at h
    obtain ⟨⟨rfl, _⟩, _⟩ := h
    obtain ⟨i, u, stmts, sub, sims, w3, w4, u', rfl, g1, g2, g3, g4, g5, g6, g7⟩ := getProver_or_parts h1
    have hi : i < subs.length := (List.getElem?_eq_some_iff.mp g1).1
    unfold PTree.getNizkProof at h2
    obtain ⟨⟨v, p1⟩, w5, k1, h2⟩ := pm_bind.mp h2
    obtain ⟨⟨com, p2⟩, w6, k2, h2⟩ := pm_bind.mp h2
    simp only at h2 k2
    rw [pm_getStore_bind, pm_liftE_bind_iff] at h2
    obtain ⟨id, _, h2⟩ := h2
    rw [pm_liftE_bind_iff] at h2
    obtain ⟨c, _, h2⟩ := h2
    obtain ⟨r, w7, k3, h2⟩ := pm_bind.mp h2
    rw [pm_pure_iff, Prod.mk.injEq, Prod.mk.injEq] at h2
    obtain ⟨⟨rfl, rfl⟩, _⟩ := h2
    obtain ⟨x, sub0, w0, hx, hv⟩ := precommit_or k1 (by omega) (by omega)
    simp only [PTree.precommit] at k1
    obtain ⟨⟨v1, sub1⟩, w8, _, k1⟩ := pm_bind.mp k1
    simp only at k1
    rw [pm_liftE_bind_iff] at k1
    obtain ⟨vs, _, k1⟩ := k1
    rw [pm_pure_iff, Prod.mk.injEq, Prod.mk.injEq] at k1
    obtain ⟨⟨_, rfl⟩, _⟩ := k1
    simp only [PTree.internalCommit] at k2
    rw [pm_getStore_bind, pm_liftE_bind_iff] at k2
    obtain ⟨_, _, k2⟩ := k2
    obtain ⟨⟨v2, sub2⟩, w9, _, k2⟩ := pm_bind.mp k2
    simp only at k2
    rw [pm_liftE_bind_iff] at k2
    obtain ⟨vs2, _, k2⟩ := k2
    rw [pm_pure_iff, Prod.mk.injEq, Prod.mk.injEq] at k2
    obtain ⟨⟨_, rfl⟩, _⟩ := k2
    simp only [PTree.computeResponse] at k3
    obtain ⟨r0, w10, _, k6⟩ := pm_bind.mp k3
    clear k3
    rw [pm_liftE_bind_iff] at k6
    obtain ⟨cs, k4, k6⟩ := k6
    rw [pm_liftE_bind_iff] at k6
    obtain ⟨rs, k5, k6⟩ := k6
    rw [pm_pure_iff, Prod.mk.injEq] at k6
    have hst : stmts.length = (sims.map Sim.challenge).length + 1 := by rw [List.length_map]; omega
    rw [hst] at k4
    obtain ⟨hs1, _⟩ := signs_residual (by rw [List.length_map]; omega) (fun y hy => by
      obtain ⟨sim, hsim, rfl⟩ := List.mem_map.mp hy
      obtain ⟨v, v', a, b, _, _, m3⟩ := g6 sim hsim
      exact simulate_drawn leaf_drawn m3) k4
    rw [List.length_map, g5] at hs1
    refine ⟨i, u, w3, w4, sub, u', cs, rs, g1, g2, g3, k6.1.symm, hs1, fun j y hy hp => ⟨?_, ?_⟩⟩
    · rintro rfl
      rw [g1] at hy
      cases hy
      have := precommit_plain d hp _ _ _ _ g3 _ _ _ _ hx
      subst this
      simp only [hv]
      split
      · simp only [saidOf]
        rw [List.getElem?_insertIdx_self, if_pos (by rw [List.length_map]; omega)]
        rfl
      · rfl
    · intro hne hc
      obtain ⟨sim, v', a, b, m1, m2, m3⟩ := g7 j y hy hne
      obtain ⟨z, zs, hz⟩ := simulate_composed (blank_composed m2 hc) m3
      have hget : ((sims.map Sim.precommitment).insertIdx i x)[j]? = some (.list (z :: zs)) := by
        rcases Nat.lt_or_gt_of_ne hne with hlt | hgt
        · rw [if_neg (by omega)] at m1
          rw [List.getElem?_insertIdx_of_lt hlt, List.getElem?_map, m1, ← hz]; rfl
        · rw [if_pos hgt] at m1
          rw [List.getElem?_insertIdx_of_gt hgt, List.getElem?_map, m1, ← hz]; rfl
      have hany : ((sims.map Sim.precommitment).insertIdx i x).any Val.truthy = true :=
        List.any_eq_true.mpr ⟨_, List.mem_of_getElem? hget, by simp [Val.truthy]⟩
      refine ⟨z, zs, ?_⟩
      simp only [hv, hany, if_true, saidOf, hget]
      rfl

end Zksk
