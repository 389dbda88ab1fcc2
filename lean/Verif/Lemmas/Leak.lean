import Verif.Lemmas.Select
import Verif.Lemmas.Again
import Verif.Props.Arith

/-! The challenges of the clauses of a disjunction in an honest proof. -/

set_option linter.unusedSectionVars false

namespace Zksk

open Spec

variable {E : Type} [AddCommGroup E] [DecidableEq E]
variable {L P : Type} [StmtOps E L] [ProverOps E L P]

/-- A challenge as drawn by `get_random_num`. -/
def Drawn (c : Int) : Prop := 0 ≤ c ∧ c < 2 ^ challengeLength

theorem challengeOrDraw_range {w w' : World} {c : Int} (h : Tree.challengeOrDraw none w = .ok (c, w')) :
    Drawn c := by
  simp only [Tree.challengeOrDraw, getRandomNum] at h
  obtain ⟨_, h1, h2, _⟩ := draw_ok h
  exact ⟨h1, by simpa using h2⟩

theorem simulate_drawn (hl : ∀ (l : L) (d : Option (Dict Int)) (w : World) (sim : Sim E) (w' : World),
      StmtOps.simulate l d none w = .ok (sim, w') → Drawn sim.challenge)
    {t : Tree L} {d : Option (Dict Int)} {w w' : World} {sim : Sim E}
    (h : Tree.simulate t d none w = .ok (sim, w')) : Drawn sim.challenge := by
  cases t with
  | leaf l => exact hl l d w sim w' h
  | and s subs =>
    simp only [Tree.simulate] at h
    obtain ⟨d', w1, _, h⟩ := pm_bind.mp h
    obtain ⟨c, w2, h1, h⟩ := pm_bind.mp h
    obtain ⟨sims, w3, _, h⟩ := pm_bind.mp h
    rw [pm_pure_iff, Prod.mk.injEq] at h
    rw [← h.1]
    exact challengeOrDraw_range h1
  | or s subs =>
    simp only [Tree.simulate] at h
    obtain ⟨c, w2, h1, h⟩ := pm_bind.mp h
    obtain ⟨sims, w3, _, h⟩ := pm_bind.mp h
    rw [pm_pure_iff, Prod.mk.injEq] at h
    rw [← h.1]
    exact challengeOrDraw_range h1

theorem dlrep_drawn (s : DLRep E) (d : Option (Dict Int)) (w : World) (sim : Sim E) (w' : World)
    (h : StmtOps.simulate s d none w = .ok (sim, w')) : Drawn sim.challenge := by
  simp only [StmtOps.simulate, DLRep.simulate] at h
  obtain ⟨_, w2, _, h⟩ := pm_bind.mp h
  obtain ⟨c, w1, h1, h⟩ := pm_bind.mp h
  have hc : Drawn c := challengeOrDraw_range h1
  rw [pm_getStore_bind, pm_liftE_bind_iff] at h
  obtain ⟨_, _, h⟩ := h
  rw [pm_liftE_bind_iff] at h
  obtain ⟨_, _, h⟩ := h
  rw [pm_pure_iff, Prod.mk.injEq] at h
  rw [← h.1]
  exact hc

theorem leaf_drawn (l : Leaf E) (d : Option (Dict Int)) (w : World) (sim : Sim E) (w' : World)
    (h : StmtOps.simulate l d none w = .ok (sim, w')) : Drawn sim.challenge := by
  cases l with
  | dlrep s => exact dlrep_drawn s d w sim w' h
  | ext s =>
    simp only [StmtOps.simulate, Ext.simulate] at h
    rw [pm_liftE_bind_iff] at h
    obtain ⟨t, _, h⟩ := h
    obtain ⟨tr, w1, h1, h⟩ := pm_bind.mp h
    rw [pm_pure_iff, Prod.mk.injEq] at h
    rw [← h.1]
    have := simulate_drawn dlrep_drawn h1
    exact this

theorem setup_drawn (hl : ∀ (l : L) (d : Option (Dict Int)) (w : World) (sim : Sim E) (w' : World),
      StmtOps.simulate l d none w = .ok (sim, w') → Drawn sim.challenge) {idx : Nat} :
    ∀ (ts : List (Tree L)) (index : Nat) (w w' : World) (ts' : List (Tree L)) (sims : List (Sim E)),
    PTree.setupSimulations idx ts index w = .ok ((ts', sims), w') →
    ts'.length = ts.length ∧ (∀ s ∈ sims, Drawn s.challenge) ∧
    (idx < index → sims.length = ts.length) ∧
    (index ≤ idx → idx < index + ts.length → sims.length + 1 = ts.length)
  | [], index, w, w', ts', sims, h => by
    simp only [PTree.setupSimulations, pm_pure_iff, Prod.mk.injEq] at h
    obtain ⟨⟨rfl, rfl⟩, _⟩ := h
    simp
  | t :: ts, index, w, w', ts', sims, h => by
    simp only [PTree.setupSimulations] at h
    split at h
    · rename_i he
      obtain ⟨⟨ts1, sims1⟩, w1, h1, h⟩ := pm_bind.mp h
      rw [pm_pure_iff, Prod.mk.injEq, Prod.mk.injEq] at h
      obtain ⟨⟨rfl, rfl⟩, _⟩ := h
      obtain ⟨e1, e2, e3, e4⟩ := setup_drawn hl ts (index + 1) _ _ _ _ h1
      simp only [List.length_cons]
      exact ⟨by omega, e2, by omega, fun _ _ => by rw [e3 (by omega)]⟩
    · rename_i he
      obtain ⟨t1, w1, h1, h⟩ := pm_bind.mp h
      obtain ⟨s, w2, h2, h⟩ := pm_bind.mp h
      obtain ⟨⟨ts1, sims1⟩, w3, h3, h⟩ := pm_bind.mp h
      rw [pm_pure_iff, Prod.mk.injEq, Prod.mk.injEq] at h
      obtain ⟨⟨rfl, rfl⟩, _⟩ := h
      obtain ⟨e1, e2, e3, e4⟩ := setup_drawn hl ts (index + 1) _ _ _ _ h3
      simp only [List.length_cons]
      refine ⟨by omega, ?_, fun hi => by rw [e3 (by omega)], fun hi hi' => by
        have := e4 (by omega) (by omega); omega⟩
      intro x hx
      rcases List.mem_cons.mp hx with rfl | hx
      · exact simulate_drawn hl h2
      · exact e2 x hx

theorem orLoop_length {acts : List (PM (Option (PTree E L P) × Tree L))} :
    ∀ (fuel : Nat) (possible : List Nat) (stmts : List (Tree L)) (w w' : World)
      (r : Option (Nat × PTree E L P)) (stmts' : List (Tree L)),
    PTree.orLoop acts fuel possible stmts w = .ok ((r, stmts'), w') → stmts'.length = stmts.length
  | 0, possible, stmts, w, w', r, stmts', h => by
    simp only [PTree.orLoop, pm_pure_iff, Prod.mk.injEq] at h
    rw [h.1.2]
  | fuel + 1, possible, stmts, w, w', r, stmts', h => by
    simp only [PTree.orLoop] at h
    split at h
    · rw [pm_pure_iff, Prod.mk.injEq, Prod.mk.injEq] at h
      rw [h.1.2]
    · obtain ⟨i, w1, h1, h⟩ := pm_bind.mp h
      cases ha : acts[i]? with
      | none => simp only [ha] at h; exact (raise_ne.mp h).elim
      | some act =>
        simp only [ha] at h
        obtain ⟨⟨p?, t'⟩, w2, h2, h⟩ := pm_bind.mp h
        cases p? with
        | none =>
          simp only at h
          have := orLoop_length _ _ _ _ _ _ _ h
          simpa using this
        | some p =>
          simp only at h
          rw [pm_pure_iff, Prod.mk.injEq, Prod.mk.injEq] at h
          rw [← h.1.2]; simp

/-- The responses of an honest proof of a disjunction. -/
theorem prove_or_shape (hl : ∀ (l : L) (d : Option (Dict Int)) (w : World) (sim : Sim E) (w' : World),
      StmtOps.simulate l d none w = .ok (sim, w') → Drawn sim.challenge)
    {J : Store → Prop} {s : Bool} {subs : List (Tree L)} {d : Dict Int}
    (hJ : ∀ t ∈ subs, ∀ w r w', J w.store →
      (PTree.getProver t d : PM (Option (PTree E L P) × Tree L)) w = .ok (r, w') → J w'.store)
    {w w' : World} (hw : J (updateSecretValues w.store d)) {env : Env E} {msg : String} {nizk : NIZK E}
    {t' : Tree L} (h : prove P env (.or s subs) d msg w = .ok ((nizk, t'), w')) :
    ∃ (i : Nat) (t : Tree L) (cs : List Int) (rs : List (Val E)) (w1 w2 : World) (sub : PTree E L P)
      (t1 : Tree L), subs[i]? = some t ∧ t.simulated = false ∧ J w1.store ∧
      PTree.getProver t d w1 = .ok ((some sub, t1), w2) ∧
      nizk.responses = .tuple [.list (cs.map Val.int), .list rs] ∧ cs.length = subs.length ∧
      cs.sum % 2 ^ challengeLength = nizk.challenge % 2 ^ challengeLength ∧
      (∀ c, cs[i]? = some c → -(2 : Int) ^ challengeLength < c ∧ c ≤ 0) ∧
      (∀ (j : Nat) c, cs[j]? = some c → j ≠ i → Drawn c) := by
  unfold prove at h
  obtain ⟨⟨p?, t1⟩, w1, h1, h⟩ := pm_bind.mp h
  cases p? with
  | none => exact (raise_ne.mp h).elim
  | some p =>
    simp only at h
    obtain ⟨⟨n, p'⟩, w2, h2, h⟩ := pm_bind.mp h
    rw [pm_pure_iff, Prod.mk.injEq, Prod.mk.injEq] at h
    obtain ⟨⟨rfl, _⟩, _⟩ := h
    rcases getProver_or_cases hJ hw h1 with ⟨_, h0⟩ | ⟨_, h0, _⟩ |
      ⟨rfl, i, u, stmts, sub, sims, w3, w4, t2, g1, g2, g3, g4, g5⟩
    · cases h0
    · cases h0
    · cases g5
      have hlen : stmts.length = subs.length ∧ (∀ s ∈ sims, Drawn s.challenge) ∧ sims.length + 1 = subs.length := by
        have hi : i < subs.length := (List.getElem?_eq_some_iff.mp g1).1
        simp only [PTree.getProver] at h1
        rw [pm_getStore_bind, pm_setStore_bind] at h1
        simp only [Bool.false_eq_true, if_false] at h1
        obtain ⟨⟨r, subs'⟩, w5, k1, k2⟩ := pm_bind.mp h1
        have hl1 := orLoop_length _ _ _ _ _ _ _ k1
        cases r with
        | none =>
          simp only at k2
          rw [pm_pure_iff, Prod.mk.injEq, Prod.mk.injEq] at k2
          cases k2.1.1
        | some ip =>
          obtain ⟨i', sub'⟩ := ip
          simp only at k2
          obtain ⟨⟨stmts', sims'⟩, w6, k3, k2⟩ := pm_bind.mp k2
          rw [pm_pure_iff, Prod.mk.injEq, Prod.mk.injEq] at k2
          have := k2.1.1
          simp only [Option.some.injEq, PTree.or.injEq] at this
          obtain ⟨_, rfl, rfl, rfl, rfl⟩ := this
          obtain ⟨e1, e2, _, e4⟩ := setup_drawn hl _ _ _ _ _ _ k3
          have := e4 (by omega) (by omega)
          exact ⟨by omega, e2, by omega⟩
      obtain ⟨hl1, hl2, hl3⟩ := hlen
      have hi : i < subs.length := (List.getElem?_eq_some_iff.mp g1).1
      unfold PTree.getNizkProof at h2
      obtain ⟨⟨v, p1⟩, w5, k1, h2⟩ := pm_bind.mp h2
      obtain ⟨⟨com, p2⟩, w6, k2, h2⟩ := pm_bind.mp h2
      simp only at h2 k2
      rw [pm_getStore_bind, pm_liftE_bind_iff] at h2
      obtain ⟨id, _, h2⟩ := h2
      rw [pm_liftE_bind_iff] at h2
      obtain ⟨c, _, h2⟩ := h2
      obtain ⟨r, w7, k3, h2⟩ := pm_bind.mp h2
      rw [pm_pure_iff, Prod.mk.injEq, Prod.mk.injEq] at h2
      obtain ⟨⟨hn, rfl⟩, _⟩ := h2
      simp only [PTree.precommit] at k1
      obtain ⟨⟨v1, sub1⟩, w8, _, k1⟩ := pm_bind.mp k1
      simp only at k1
      rw [pm_liftE_bind_iff] at k1
      obtain ⟨vs, _, k1⟩ := k1
      rw [pm_pure_iff, Prod.mk.injEq, Prod.mk.injEq] at k1
      obtain ⟨⟨_, rfl⟩, _⟩ := k1
      simp only [PTree.internalCommit] at k2
      rw [pm_getStore_bind, pm_liftE_bind_iff] at k2
      obtain ⟨_, _, k2⟩ := k2
      obtain ⟨⟨v2, sub2⟩, w9, _, k2⟩ := pm_bind.mp k2
      simp only at k2
      rw [pm_liftE_bind_iff] at k2
      obtain ⟨vs2, _, k2⟩ := k2
      rw [pm_pure_iff, Prod.mk.injEq, Prod.mk.injEq] at k2
      obtain ⟨⟨_, rfl⟩, _⟩ := k2
      simp only [PTree.computeResponse] at k3
      obtain ⟨r0, w10, _, k6⟩ := pm_bind.mp k3
      clear k3
      have hmc : (sims.map Sim.challenge).length = sims.length := by simp
      have hmr : (sims.map Sim.responses).length = sims.length := by simp
      have hst : stmts.length = (sims.map Sim.challenge).length + 1 := by omega
      have hst' : stmts.length = (sims.map Sim.responses).length + 1 := by omega
      rw [pm_liftE_bind_iff] at k6
      obtain ⟨cs, k4, k6⟩ := k6
      rw [pm_liftE_bind_iff] at k6
      obtain ⟨rs, k5, k6⟩ := k6
      rw [hst, orSlots_eq _ _ _ (by omega)] at k4
      rw [pm_pure_iff, Prod.mk.injEq] at k6
      have hcs := Except.ok.inj k4
      have hres := Props.C02_residual_closes (sims.map Sim.challenge) c challengeLength
      generalize findResidualChallenge (sims.map Sim.challenge) c challengeLength = res at *
      refine ⟨i, u, cs, rs, w3, w4, sub, t2, g1, g2, g3, g4, by rw [← hn]; exact k6.1.symm, ?_, ?_, ?_, ?_⟩
      · rw [← hcs, List.length_insertIdx_of_le_length (by omega)]; omega
      · rw [← hn, ← hcs, sum_insertIdx _ _ _ (by omega), Int.add_comm]
        exact hres.1
      · intro x hx
        rw [← hcs, List.getElem?_insertIdx_self, if_pos (by omega)] at hx
        cases hx
        exact hres.2
      · intro j x hx hj
        have hm : ∀ y ∈ sims.map Sim.challenge, Drawn y := by
          intro y hy
          obtain ⟨s, hs, rfl⟩ := List.mem_map.mp hy
          exact hl2 s hs
        rw [← hcs] at hx
        rcases Nat.lt_or_gt_of_ne hj with hlt | hgt
        · rw [List.getElem?_insertIdx_of_lt hlt] at hx
          exact hm x (List.mem_of_getElem? hx)
        · rw [List.getElem?_insertIdx_of_gt hgt] at hx
          exact hm x (List.mem_of_getElem? hx)

end Zksk
