import Verif.Lemmas.CoreComplete
import Verif.Lemmas.Compose

/-! Provers and simulators do not fail. -/

set_option linter.unusedSectionVars false

namespace Zksk

open Spec

variable {E : Type} [AddCommGroup E] [DecidableEq E]

/-! ### Progress of representations -/

theorem draw_progress {m : Nat} (hm : m ≠ 0) (w : World) :
    ∃ k w', draw m w = .ok (k, w') ∧ w'.store = w.store := by
  unfold draw
  rw [if_neg hm]
  exact ⟨_, _, rfl, rfl⟩

theorem drawAll_progress {m : Nat} (hm : m ≠ 0) : ∀ (l : List Sec) (w : World),
    ∃ ks w', DLRep.drawAll m l w = .ok (ks, w') ∧ w'.store = w.store
  | [], w => ⟨[], w, rfl, rfl⟩
  | s :: l, w => by
    obtain ⟨k, w1, h1, h2⟩ := draw_progress hm w
    obtain ⟨ks, w2, h3, h4⟩ := drawAll_progress hm l w1
    refine ⟨(s, k) :: ks, w2, ?_, h4.trans h2⟩
    simp only [DLRep.drawAll]
    rw [pm_bind_eq h1, pm_bind_eq h3]
    rfl

theorem lookupAll_progress {σ : Store} {d : Dict Int} : ∀ {l : List Sec},
    (∀ x ∈ l, ∃ v, Dict.get? σ d x = some v) → ∃ rs, DLRep.lookupAll σ d l = .ok rs
  | [], _ => ⟨[], rfl⟩
  | x :: l, h => by
    obtain ⟨v, hv⟩ := h x (by simp)
    obtain ⟨rs, hrs⟩ := lookupAll_progress (l := l) fun y hy => h y (by simp [hy])
    refine ⟨v :: rs, ?_⟩
    simp [DLRep.lookupAll, Dict.get, hv, hrs, bind_ok]

theorem commitGo_progress : ∀ (ks : List Int) (bs : List (Pt E)) (acc : Pt E),
    (∀ b ∈ bs, b.grp = acc.grp) → ∃ p, DLRepProver.commitGo acc ks bs = .ok p
  | [], bs, acc, _ => ⟨acc, by simp [DLRepProver.commitGo]⟩
  | k :: ks, [], acc, _ => ⟨acc, by simp [DLRepProver.commitGo]⟩
  | k :: ks, b :: bs, acc, h => by
    have hb := h b (by simp)
    obtain ⟨p, hp⟩ := commitGo_progress ks bs ⟨acc.grp, acc.val + k • b.val⟩
      fun c hc => h c (by simp [hc])
    refine ⟨p, ?_⟩
    simp only [DLRepProver.commitGo, Pt.add, Pt.smul, hb, if_true, bind_ok]
    exact hp

theorem drawDict_progress : ∀ (d : Dict Nat) (w : World), (∀ e ∈ d, e.2 ≠ 0) →
    ∃ ks w', Tree.drawDict d w = .ok (ks, w') ∧ w'.store = w.store
  | [], w, _ => ⟨[], w, rfl, rfl⟩
  | (u, o) :: d, w, h => by
    obtain ⟨k, w1, h1, h2⟩ := draw_progress (h (u, o) (by simp)) w
    obtain ⟨ks, w2, h3, h4⟩ := drawDict_progress d w1 fun e he => h e (by simp [he])
    refine ⟨(u, k) :: ks, w2, ?_, h4.trans h2⟩
    simp only [Tree.drawDict]
    rw [pm_bind_eq h1, pm_bind_eq h3]
    rfl

theorem mem_set {α : Type} {σ : Store} : ∀ {d : Dict α} {s : Sec} {v : α} {e : Sec × α},
    e ∈ Dict.set σ d s v → e ∈ d ∨ e.2 = v
  | [], s, v, e, h => by simp [Dict.set] at h; exact .inr (by rw [h])
  | (k, w) :: d, s, v, e, h => by
    simp only [Dict.set] at h
    split at h
    · rcases List.mem_cons.mp h with rfl | h
      · exact .inr rfl
      · exact .inl (by simp [h])
    · rcases List.mem_cons.mp h with rfl | h
      · exact .inl (by simp)
      · rcases mem_set h with h | h
        · exact .inl (by simp [h])
        · exact .inr h

theorem orderDict_nonzero (σ : Store) (vars : List Sec) (bs : List (Pt E))
    (h : ∀ b ∈ bs, b.grp.order ≠ 0) : ∀ e ∈ Tree.orderDict σ vars bs, e.2 ≠ 0 := by
  unfold Tree.orderDict
  have : ∀ (z : List (Sec × Pt E)) (d : Dict Nat), (∀ x ∈ z, x.2.grp.order ≠ 0) → (∀ e ∈ d, e.2 ≠ 0) →
      ∀ e ∈ z.foldl (fun d sg => Dict.set σ d sg.1 sg.2.grp.order) d, e.2 ≠ 0 := by
    intro z
    induction z with
    | nil => intro d _ hd; exact hd
    | cons a z ih =>
      intro d hz hd
      refine ih _ (fun x hx => hz x (by simp [hx])) fun e he => ?_
      rcases mem_set he with he | he
      · exact hd e he
      · rw [he]; exact hz a (by simp)
  exact this _ [] (fun x hx => h _ (List.of_mem_zip hx).2) (by simp)

/-- Two dictionaries out of which one draws. -/
theorem updateRandomizersWith_progress {vars : List Sec} {getR : PM (Dict Int)} (w : World)
    (hR : ∃ d' w', getR w = .ok (d', w')) (d : Option (Dict Int)) :
    ∃ d' w', Tree.updateRandomizersWith (.ok vars) getR d w = .ok (d', w') := by
  cases d with
  | none => exact hR
  | some d0 =>
    simp only [Tree.updateRandomizersWith]
    rw [pm_getStore_bind, pm_liftE_bind]
    split
    · obtain ⟨d', w', h⟩ := hR
      exact ⟨_, _, by rw [pm_bind_eq h]; rfl⟩
    · exact ⟨_, _, rfl⟩

/-- Leaves that can be worked with: a nonempty list of bases, all of the group of the left-hand side. -/
def SolidRep (s : DLRep E) : Prop :=
  s.secretVars.length = s.bases.length ∧ s.bases ≠ [] ∧
    (∀ b ∈ s.bases, b.grp = s.lhs.grp) ∧ s.lhs.grp.order ≠ 0

theorem getRandomizers_progress {s : DLRep E} (h : SolidRep s) (w : World) :
    ∃ d' w', DLRep.getRandomizers s w = .ok (d', w') := by
  unfold DLRep.getRandomizers
  cases hbs : s.bases with
  | nil => exact (h.2.1 hbs).elim
  | cons b bs =>
    simp only
    rw [pm_getStore_bind]
    have hb : b.grp.order ≠ 0 := by rw [h.2.2.1 b (by simp [hbs])]; exact h.2.2.2
    obtain ⟨ks, w', h1, _⟩ := drawAll_progress hb (Tree.dedupGo w.store s.secretVars []) w
    exact ⟨ks, w', h1⟩

theorem updateRandomizers_dlrep_progress {s : DLRep E} (h : SolidRep s) (d : Option (Dict Int)) (w : World)
    (hu : ∀ d0, d = some d0 → d0.Uniq w.store) :
    ∃ d' w', DLRep.updateRandomizers s d w = .ok (d', w') ∧ w'.store = w.store ∧
      Tree.GoodDict w.store s.secretVars d' := by
  obtain ⟨d', w', h1⟩ := updateRandomizersWith_progress (vars := s.secretVars) w
    (getRandomizers_progress h w) d
  obtain ⟨h2, h3, _⟩ := updateRandomizersWith_ok (fun w' d' h => DLRep.getRandomizers_ok h) hu h1
  exact ⟨d', w', h1, h2, h3⟩

theorem commit_progress_dlrep (p : DLRepProver E) (h : SolidRep p.stmt) (d : Option (Dict Int))
    (w : World) (hu : ∀ d0, d = some d0 → d0.Uniq w.store) :
    ∃ com p' w', DLRepProver.internalCommit p d w = .ok ((com, p'), w') ∧ w'.store = w.store := by
  obtain ⟨d', w', h1, h2, h3⟩ := updateRandomizers_dlrep_progress h d w hu
  obtain ⟨rs, hrs⟩ := lookupAll_progress (σ := w'.store) (d := d') (l := p.stmt.secretVars)
    (h2.symm ▸ h3.2)
  have : ∃ c, DLRepProver.commitWith p.stmt rs = .ok c := by
    unfold DLRepProver.commitWith
    cases hbs : p.stmt.bases with
    | nil => exact (h.2.1 hbs).elim
    | cons b bs =>
      simp only
      refine commitGo_progress rs (b :: bs) b.grp.inf fun c hc => ?_
      rw [← hbs] at hc
      rw [h.2.2.1 c hc]
      exact (h.2.2.1 b (by simp [hbs])).symm
  obtain ⟨c, hc⟩ := this
  refine ⟨.pt c, { p with ks := some rs }, w', ?_, h2⟩
  unfold DLRepProver.internalCommit
  rw [pm_bind_eq h1, pm_getStore_bind, hrs, pm_liftE_bind, hc, pm_liftE_bind]
  rfl

theorem wsumGo_progress : ∀ (ks : List Int) (bs : List (Pt E)) (acc : Pt E),
    (∀ b ∈ bs, b.grp = acc.grp) → ∃ p, wsumGo acc (ks.map Val.int) bs = .ok p ∧ p.grp = acc.grp
  | [], bs, acc, _ => ⟨acc, by simp [wsumGo], rfl⟩
  | k :: ks, [], acc, _ => ⟨acc, by simp [wsumGo], rfl⟩
  | k :: ks, b :: bs, acc, h => by
    have hb := h b (by simp)
    obtain ⟨p, hp, hg⟩ := wsumGo_progress ks bs ⟨acc.grp, acc.val + k • b.val⟩
      fun c hc => h c (by simp [hc])
    refine ⟨p, ?_, hg⟩
    simp only [List.map_cons, wsumGo, Val.asInt, bind_ok, Pt.add, Pt.smul, hb, if_true]
    exact hp

theorem simulate_progress_dlrep (s : DLRep E) (h : SolidRep s) (d : Option (Dict Int)) (c : Option Int)
    (w : World) (hu : ∀ d0, d = some d0 → d0.Uniq w.store) :
    ∃ sim w', DLRep.simulate s d c w = .ok (sim, w') ∧ w'.store = w.store := by
  obtain ⟨d', w1, h1, h2, h3⟩ := updateRandomizers_dlrep_progress h d w hu
  have hc : ∃ c' w2, Tree.challengeOrDraw c w1 = .ok (c', w2) ∧ w2.store = w1.store := by
    cases c with
    | some c => exact ⟨c, w1, rfl, rfl⟩
    | none => exact draw_progress (m := 2 ^ challengeLength) (by norm_num [challengeLength]) w1
  obtain ⟨c', w2, h4, h5⟩ := hc
  obtain ⟨rs, hrs⟩ := lookupAll_progress (σ := w2.store) (d := d') (l := s.secretVars)
    ((h5.trans h2).symm ▸ h3.2)
  have : ∃ com, DLRep.recompute s c' (.list (rs.map Val.int)) = .ok com := by
    unfold DLRep.recompute Grp.wsum
    simp only [Val.elems, bind_ok]
    have hl : rs.length = s.bases.length := (lookupAll_ok hrs).1.trans h.1
    obtain ⟨p, hp, hg⟩ := wsumGo_progress rs s.bases s.lhs.grp.inf h.2.2.1
    rw [if_neg (by simp [hl]), hp]
    have hg' : p.grp = s.lhs.grp := hg
    simp [bind_ok, Pt.add, Pt.smul, hg']
  obtain ⟨com, hcom⟩ := this
  refine ⟨⟨com, c', .list (rs.map Val.int), .none⟩, w2, ?_, h5.trans h2⟩
  unfold DLRep.simulate
  rw [pm_bind_eq h1, pm_bind_eq h4, pm_getStore_bind, hrs, pm_liftE_bind]
  rw [hcom, pm_liftE_bind]
  rfl

/-! ### Trees -/

theorem solidL_iff {ks : List (Core E)} : SolidL ks ↔ ∀ k ∈ ks, Solid k := by
  induction ks with
  | nil => simp [SolidL]
  | cons k ks ih => simp [SolidL, ih]

theorem good_of_solid : ∀ (t : Core E), Solid t → Good SolidRep t := by
  intro t
  induction t using Tree.ind with
  | leaf s => intro h; exact .leaf s h
  | and s subs ih => intro h; exact .and s subs h.1 fun t ht => ih t ht (solidL_iff.mp h.2 t ht)
  | or s subs ih => intro h; exact .or s subs h.1 fun t ht => ih t ht (solidL_iff.mp h.2 t ht)

theorem wf_of_good {t : Core E} (h : Good SolidRep t) : WellFormed t := by
  induction h with
  | leaf s h => exact h.1
  | and s ts hne _ ih => exact ⟨hne, wellFormedL_iff.mpr ih⟩
  | or s ts hne _ ih => exact ⟨hne, wellFormedL_iff.mpr ih⟩

theorem wf_of_solid {t : Core E} (h : Solid t) : WellFormed t := wf_of_good (good_of_solid t h)

theorem mem_coreBasesL {b : Pt E} : ∀ {ks : List (Core E)},
    b ∈ coreBasesL ks ↔ ∃ k ∈ ks, b ∈ coreBases k
  | [] => by simp [coreBasesL]
  | k :: ks => by simp [coreBasesL, mem_coreBasesL (ks := ks)]

theorem bases_of_good {t : Core E} (h : Good SolidRep t) : ∀ b ∈ coreBases t, b.grp.order ≠ 0 := by
  induction h with
  | leaf s h =>
    intro b hb
    simp only [coreBases] at hb
    rw [h.2.2.1 b hb]; exact h.2.2.2
  | and s ts hne _ ih =>
    intro b hb
    simp only [coreBases] at hb
    obtain ⟨t, ht, hb⟩ := mem_coreBasesL.mp hb
    exact ih t ht b hb
  | or s ts hne _ ih =>
    intro b hb
    simp only [coreBases] at hb
    obtain ⟨t, ht, hb⟩ := mem_coreBasesL.mp hb
    exact ih t ht b hb

theorem updateRandomizers_progress {t : Core E} (h : Good SolidRep t) (d : Option (Dict Int)) (w : World)
    (hu : ∀ d0, d = some d0 → d0.Uniq w.store) :
    ∃ d' w', Tree.updateRandomizers t d w = .ok (d', w') ∧ w'.store = w.store ∧
      Tree.GoodDict w.store (secrets t) d' := by
  have hR : ∃ d' w', Tree.getRandomizers t w = .ok (d', w') := by
    unfold Tree.getRandomizers
    rw [pm_getStore_bind, secretVars_core, bases_core, pm_liftE_bind, pm_liftE_bind]
    obtain ⟨ks, w', h1, _⟩ := drawDict_progress (Tree.orderDict w.store (secrets t) (coreBases t)) w
      (orderDict_nonzero _ _ _ (bases_of_good h))
    exact ⟨ks, w', h1⟩
  unfold Tree.updateRandomizers
  rw [secretVars_core]
  obtain ⟨d', w', h1⟩ := updateRandomizersWith_progress (vars := secrets t) w hR d
  obtain ⟨h2, h3, _⟩ := updateRandomizersWith_ok (fun w' d' h' => Tree.getRandomizers_ok
    (secretVars_core t) (bases_core t) (le_of_eq (wf_length t (wf_of_good h))) h') hu h1
  exact ⟨d', w', h1, h2, h3⟩

theorem challengeOrDraw_progress (c : Option Int) (w : World) :
    ∃ c' w', Tree.challengeOrDraw c w = .ok (c', w') ∧ w'.store = w.store := by
  cases c with
  | some c => exact ⟨c, w, rfl, rfl⟩
  | none => exact draw_progress (m := 2 ^ challengeLength) (by norm_num [challengeLength]) w

/-- Simulation does not fail. -/
theorem simulate_progress : ∀ (t : Core E), Good SolidRep t →
    ∀ (d : Option (Dict Int)) (c : Option Int) (w : World), (∀ d0, d = some d0 → d0.Uniq w.store) →
    ∃ sim w', Tree.simulate t d c w = .ok (sim, w') ∧ w'.store = w.store := by
  intro t
  induction t using Tree.ind with
  | leaf s =>
    intro h d c w hu
    cases h with
    | leaf _ h => exact simulate_progress_dlrep s h d c w hu
  | and s subs ih =>
    intro h d c w hu
    obtain ⟨d', w1, h1, h2, h3⟩ := updateRandomizers_progress h d w hu
    obtain ⟨c', w2, h4, h5⟩ := challengeOrDraw_progress c w1
    cases h with
    | and _ _ hne hg =>
    have hrec : ∀ (ts : List (Core E)), (∀ t ∈ ts, t ∈ subs) → ∀ w3, w3.store = w.store →
        ∃ sims w', Tree.simulateAnd ts d' c' w3 = .ok (sims, w') ∧ w'.store = w.store := by
      intro ts
      induction ts with
      | nil => intro _ w3 hw; exact ⟨[], w3, rfl, hw⟩
      | cons t ts iht =>
        intro hm w3 hw
        obtain ⟨sim, w4, g1, g2⟩ := ih t (hm t (by simp)) (hg t (hm t (by simp))) (some d') (some c') w3
          (by intro d0 hd; injection hd with hd; subst hd; rw [hw]; exact h3.1)
        obtain ⟨sims, w5, g3, g4⟩ := iht (fun t ht => hm t (by simp [ht])) w4 (g2.trans hw)
        refine ⟨sim :: sims, w5, ?_, g4⟩
        simp only [Tree.simulateAnd]
        rw [pm_bind_eq g1, pm_bind_eq g3]
        rfl
    obtain ⟨sims, w3, g1, g2⟩ := hrec subs (fun t ht => ht) w2 (h5.trans h2)
    refine ⟨{ commitment := .list (sims.map Sim.commitment), challenge := c',
              responses := .list (sims.map Sim.responses),
              precommitment := .list (sims.map Sim.precommitment) }, w3, ?_, g2⟩
    · simp only [Tree.simulate]
      rw [pm_bind_eq h1, pm_bind_eq h4, pm_bind_eq g1]
      rfl
  | or s subs ih =>
    intro h d c w hu
    obtain ⟨c', w2, h4, h5⟩ := challengeOrDraw_progress c w
    cases h with
    | or _ _ hne hg =>
    have hrec : ∀ (ts : List (Core E)), (∀ t ∈ ts, t ∈ subs) → ∀ (acc : List Int) w3, w3.store = w.store →
        ∃ sims w', Tree.simulateOr ts c' acc w3 = .ok (sims, w') ∧ w'.store = w.store := by
      intro ts
      induction ts with
      | nil => intro _ acc w3 hw; exact ⟨[], w3, rfl, hw⟩
      | cons t ts iht =>
        intro hm acc w3 hw
        cases ts with
        | nil =>
          obtain ⟨sim, w4, g1, g2⟩ := ih t (hm t (by simp)) (hg t (hm t (by simp))) none
            (some (findResidualChallenge acc c' challengeLength)) w3 (by simp)
          refine ⟨[sim], w4, ?_, g2.trans hw⟩
          simp only [Tree.simulateOr]
          rw [pm_bind_eq g1]
          rfl
        | cons t' ts =>
          obtain ⟨sim, w4, g1, g2⟩ := ih t (hm t (by simp)) (hg t (hm t (by simp))) none none w3 (by simp)
          obtain ⟨sims, w5, g3, g4⟩ := iht (fun t ht => hm t (by simp [ht])) (acc ++ [sim.challenge])
            w4 (g2.trans hw)
          refine ⟨sim :: sims, w5, ?_, g4⟩
          simp only [Tree.simulateOr]
          rw [pm_bind_eq g1, pm_bind_eq g3]
          rfl
    obtain ⟨sims, w3, g1, g2⟩ := hrec subs (fun t ht => ht) [] w2 h5
    refine ⟨{ commitment := .list (sims.map Sim.commitment), challenge := c',
              responses := .tuple [.list (sims.map (fun s => .int s.challenge)),
                                   .list (sims.map Sim.responses)],
              precommitment := .list (sims.map Sim.precommitment) }, w3, ?_, g2⟩
    · simp only [Tree.simulate]
      rw [pm_bind_eq h4, pm_bind_eq g1]
      rfl

mutual
theorem prepareSim_core : ∀ (t : Core E) (w : World), Tree.prepareSim t w = .ok (t, w)
  | .leaf s, w => rfl
  | .and b ts, w => by
    simp only [Tree.prepareSim]
    rw [pm_bind_eq (prepareSimL_core ts w)]; rfl
  | .or b ts, w => by
    simp only [Tree.prepareSim]
    rw [pm_bind_eq (prepareSimL_core ts w)]; rfl
theorem prepareSimL_core : ∀ (ts : List (Core E)) (w : World), Tree.prepareSimL ts w = .ok (ts, w)
  | [], w => rfl
  | t :: ts, w => by
    simp only [Tree.prepareSimL]
    rw [pm_bind_eq (prepareSim_core t w), pm_bind_eq (prepareSimL_core ts w)]; rfl
end

theorem setup_progress (idx : Nat) : ∀ (ts : List (Core E)) (index : Nat), (∀ t ∈ ts, Good SolidRep t) →
    ∀ w, ∃ sims w', (PTree.setupSimulations idx ts index : PM (List (Core E) × List (Sim E))) w =
      .ok ((ts, sims), w') ∧ w'.store = w.store
  | [], index, _, w => ⟨[], w, rfl, rfl⟩
  | t :: ts, index, h, w => by
    simp only [PTree.setupSimulations]
    split
    · obtain ⟨sims, w', h1, h2⟩ := setup_progress idx ts (index + 1) (fun t ht => h t (by simp [ht])) w
      exact ⟨sims, w', by rw [pm_bind_eq h1]; rfl, h2⟩
    · obtain ⟨sim, w1, h1, h2⟩ := simulate_progress t (h t (by simp)) none none w (by simp)
      obtain ⟨sims, w', h3, h4⟩ := setup_progress idx ts (index + 1) (fun t ht => h t (by simp [ht])) w1
      refine ⟨sim :: sims, w', ?_, h4.trans h2⟩
      rw [pm_bind_eq (prepareSim_core t w), pm_bind_eq h1, pm_bind_eq h3]
      rfl

theorem choice_progress {possible : List Nat} (h : possible ≠ []) (w : World) :
    ∃ i w', PTree.choice possible w = .ok (i, w') := by
  unfold PTree.choice
  have hl : possible.length ≠ 0 := by simpa using h
  obtain ⟨k, w1, h1, _⟩ := draw_progress hl w
  obtain ⟨_, h2, h3, _⟩ := draw_ok h1
  rw [pm_bind_eq h1]
  have : k.toNat < possible.length := by omega
  rw [List.getElem?_eq_getElem this]
  exact ⟨_, _, rfl⟩

theorem getProver_leaf_ok {s : DLRep E} (hl : s.secretVars.length = s.bases.length) (hb : s.bases ≠ []) {d : Dict Int}
    {w : World} (hu : d.Uniq w.store) (hv : ∀ x ∈ s.secretVars, (given w.store d s x).isSome) :
    ∃ p s', DLRepProver.getProver s d w = .ok ((some p, s'), w) := by
  unfold DLRepProver.getProver
  rw [pm_getStore_bind]
  have hk : ∀ x ∈ s.secretVars, (Dict.get? w.store (Dict.update w.store s.secretValues d) x).isSome := by
    intro x hx
    have := hv x hx
    unfold given at this
    cases hd : Dict.get? w.store d x with
    | some v => rw [Dict.get?_update_uniq hu _ x v hd]; rfl
    | none => rw [Dict.get?_update_of_none _ hd]; simpa [hd] using this
  have hne : s.secretVars ≠ [] := by
    intro h0
    rw [h0] at hl
    exact hb (List.length_eq_zero_iff.mp hl.symm)
  obtain ⟨x0, hx0⟩ := List.exists_mem_of_ne_nil _ hne
  rw [if_neg]
  · exact ⟨_, _, rfl⟩
  · simp only [Bool.or_eq_true, List.isEmpty_iff, List.any_eq_true, Bool.not_eq_true', not_or, not_exists,
      not_and, Bool.not_eq_false]
    refine ⟨fun h0 => ?_, fun x hx => hk x hx⟩
    have := hk x0 hx0
    rw [h0] at this
    simp [Dict.get?] at this

theorem getProver_progress_dlrep {s : DLRep E} (hs : SolidRep s) {d : Dict Int} {w : World}
    (hu : d.Uniq w.store) (hv : ∀ x ∈ s.secretVars, (given w.store d s x).isSome) :
    ∃ p s', DLRepProver.getProver s d w = .ok ((some p, s'), w) := getProver_leaf_ok hs.1 hs.2.1 hu hv

theorem candidates_ne : ∀ (ts : List (Core E)) (i : Nat), (∃ t ∈ ts, unmarked t) →
    PTree.candidates ts i ≠ []
  | [], i, h => by simp at h
  | t :: ts, i, h => by
    simp only [PTree.candidates]
    split
    · rename_i hs
      obtain ⟨u, hu, hm⟩ := h
      rcases List.mem_cons.mp hu with rfl | hu
      · cases u <;> simp_all [unmarked, Tree.simulated, StmtOps.simulated]
      · exact candidates_ne ts (i + 1) ⟨u, hu, hm⟩
    · simp

theorem unmarked_of_simulated {t : Core E} (h : t.simulated = false) : unmarked t := by
  cases t <;> exact h

/-- Leaves that the dictionary makes true. -/
def TrueRep (σ : Store) (d : Dict Int) (X : Key → Int) (s : DLRep E) : Prop :=
  (∀ x ∈ s.secretVars, given σ d s x = some (X (σ.key x))) ∧ Holds σ (.leaf s) X

/-- Leaf provers fit to commit and answer. -/
def FitRep (σ : Store) (X : Key → Int) (p : DLRepProver E) : Prop :=
  (SolidRep p.stmt ∧ Torsion (.leaf p.stmt)) ∧ CorePL X σ p

theorem solidRep_norm {s s' : DLRep E} (h : s'.norm = s.norm) (hg : SolidRep s ∧ Torsion (.leaf s)) :
    SolidRep s' ∧ Torsion (.leaf s') := by
  have h1 : s'.bases = s.bases := by have := congrArg DLRep.bases h; exact this
  have h2 : s'.secretVars = s.secretVars := by have := congrArg DLRep.secretVars h; exact this
  have h3 : s'.lhs = s.lhs := by have := congrArg DLRep.lhs h; exact this
  unfold SolidRep at *
  rw [h1, h2, h3]
  refine ⟨hg.1, fun x b hx => hg.2 x b (by simpa only [terms, h1, h2] using hx)⟩

theorem getLaws_true (σ : Store) (d : Dict Int) (X : Key → Int) (hu : updateSecretValues σ d = σ)
    (hd : d.Uniq σ) :
    GetLaws (E := E) (fun s : DLRep E => SolidRep s ∧ Torsion (.leaf s)) (TrueRep σ d X) (fun _ => True)
      (FitRep (E := E) σ X) σ d where
  upd := hu
  get := by
    intro l l' p? w w' hg ht hw h
    obtain ⟨e1, e2, e3⟩ := getProver_dlrep h
    subst e1
    refine ⟨hw, solidRep_norm e2 hg, e2, fun p hp => ⟨⟨solidRep_norm (e3 p hp).1 hg, ?_⟩, (e3 p hp).1⟩⟩
    obtain ⟨f1, f2, f3⟩ := e3 p hp
    obtain ⟨g1, g2⟩ := solidRep_norm f1 hg
    refine ⟨g1.1, ?_, ?_, g2⟩
    · have hvars : p.stmt.secretVars = l.secretVars := by
        have := congrArg DLRep.secretVars f1; exact this
      intro x hx
      rw [hvars] at hx
      have := ht.1 x hx
      rw [f3, hw]
      unfold given at this
      cases hdx : Dict.get? σ d x with
      | some v => rw [hdx] at this; rw [Dict.get?_update_uniq hd _ x v hdx]; exact this
      | none => rw [hdx] at this; rw [Dict.get?_update_of_none _ hdx]; exact this
    · have h1 : p.stmt.bases = l.bases := by have := congrArg DLRep.bases f1; exact this
      have h2 : p.stmt.secretVars = l.secretVars := by have := congrArg DLRep.secretVars f1; exact this
      have h3 : p.stmt.lhs = l.lhs := by have := congrArg DLRep.lhs f1; exact this
      cases ht.2 with
      | rep _ _ i1 i2 =>
        refine .rep _ _ ?_ ?_
        · rw [h1, h3]; exact i1
        · rw [h1, h2, h3]; exact i2
  prep := by
    intro l l' w w' hg hw h
    have h' : (pure l : PM (DLRep E)) w = .ok (l', w') := h
    rw [pm_pure_iff, Prod.mk.injEq] at h'
    obtain ⟨rfl, rfl⟩ := h'
    exact ⟨hw, hg, trivial, rfl, _, rfl, by simpa [WellFormed, DLRep.norm] using hg.1.1⟩
  simAcc := by
    intro l w w' d c sim _ h
    rw [simulate_dlrep_precommitment h]
    exact acceptsT_dlrep l
  simLaw := by
    intro t k hk hwf w w' d c sim hu h
    exact simulate_core t k hk hwf hu h

theorem sat_of_satisfied {σ : Store} {d : Dict Int} {X : Key → Int} {t : Core E} (h : Satisfied σ d X t) :
    Sat (TrueRep σ d X) t := by
  induction h with
  | rep s hv h => exact .leaf s ⟨hv, h⟩
  | all subs _ ih => exact .and _ subs ih
  | any subs _ _ ih => exact .or _ subs fun t ht hs => ih t ht (unmarked_of_simulated hs)

/-- `get_prover` does not fail when all values are given. -/
theorem getProver_progress {σ : Store} {d : Dict Int} {X : Key → Int} (hupd : updateSecretValues σ d = σ)
    (hd : d.Uniq σ) : ∀ (t : Core E), Good (fun s => SolidRep s ∧ Torsion (.leaf s)) t →
    Satisfied σ d X t → ∀ w, w.store = σ →
    ∃ p t' w', (PTree.getProver t d : PM (Option (CoreProver E) × Core E)) w = .ok ((some p, t'), w') := by
  intro t
  induction t using Tree.ind with
  | leaf s =>
    intro hg hs w hw
    cases hg with
    | leaf _ hg =>
    cases hs with
    | rep _ hv h =>
    obtain ⟨p, s', h1⟩ := getProver_progress_dlrep hg.1 (w := w) (d := d) (hw ▸ hd)
      (fun x hx => by rw [hw, hv x hx]; rfl)
    refine ⟨.leaf p, .leaf s', w, ?_⟩
    simp only [PTree.getProver]
    have h1' : (ProverOps.getProver s d : PM (Option (DLRepProver E) × DLRep E)) w =
      .ok ((some p, s'), w) := h1
    rw [pm_bind_eq h1']
    rfl
  | and b subs ih =>
    intro hg hs w hw
    cases hg with
    | and _ _ hne hg =>
    cases hs with
    | all _ hs =>
    have hrec : ∀ (ts : List (Core E)), (∀ t ∈ ts, t ∈ subs) → ∀ w, w.store = σ →
        ∃ (ps : List (CoreProver E)) (ts' : List (Core E)) (w' : World), (PTree.getProverL ts d : PM (List (Option (CoreProver E)) × List (Core E))) w =
          .ok ((ps.map some, ts'), w') := by
      intro ts
      induction ts with
      | nil => intro _ w _; exact ⟨[], [], w, rfl⟩
      | cons t ts iht =>
        intro hm w hw
        have ht := hm t (by simp)
        obtain ⟨p, t', w1, h1⟩ := ih t ht (hg t ht) (hs t ht) w hw
        obtain ⟨h2, _⟩ := getProver_law (getLaws_true σ d X hupd hd) X t (hg t ht)
          (sat_of_satisfied (hs t ht)) t' (some p) w w1 hw h1
        obtain ⟨ps, ts', w2, h3⟩ := iht (fun t ht => hm t (by simp [ht])) w1 h2
        refine ⟨p :: ps, t' :: ts', w2, ?_⟩
        simp only [PTree.getProverL]
        rw [pm_bind_eq h1, pm_bind_eq h3]
        rfl
    have hall : ∀ (ps : List (CoreProver E)), PTree.allSome (ps.map some) = some ps := by
      intro ps
      induction ps with
      | nil => rfl
      | cons p ps ih => simp [PTree.allSome, ih]
    obtain ⟨ps, ts', w', h1⟩ := hrec subs (fun t ht => ht) w hw
    refine ⟨.and false ps, .and false ts', w', ?_⟩
    simp only [PTree.getProver, pm_getStore_bind, pm_setStore_bind, hw, hupd]
    have hww : ({ w with store := σ } : World) = w := by cases w; simp at hw; simp [hw]
    rw [hww]
    simp only [Bool.false_eq_true, if_false]
    rw [pm_bind_eq h1]
    simp only [hall]
    rfl
  | or b subs ih =>
    intro hg hs w hw
    cases hg with
    | or _ _ hne hg =>
    cases hs with
    | any _ hex hs =>
    have hne := candidates_ne subs 0 hex
    obtain ⟨i, w1, h1⟩ := choice_progress hne w
    obtain ⟨h2, h3⟩ := choice_mem h1
    obtain ⟨_, t, ht, hun⟩ := candidates_mem subs 0 i h2
    simp only [Nat.sub_zero] at ht
    have hm := List.mem_of_getElem? ht
    obtain ⟨p, t', w2, h4⟩ := ih t hm (hg t hm) (hs t hm (unmarked_of_simulated hun)) w1 (h3.trans hw)
    obtain ⟨h5, h6, _⟩ := getProver_law (getLaws_true σ d X hupd hd) X t (hg t hm)
      (sat_of_satisfied (hs t hm (unmarked_of_simulated hun))) t' (some p) w1 w2 (h3.trans hw) h4
    have hgood : ∀ u ∈ subs.set i t', Good SolidRep u := by
      intro u hu
      have : Good (fun s => SolidRep s ∧ Torsion (.leaf s)) u := by
        rcases List.mem_or_eq_of_mem_set hu with hu | rfl
        · exact hg u hu
        · exact h6
      clear hu
      induction this with
      | leaf l h => exact .leaf l h.1
      | and s ts hne _ ih => exact .and s ts hne ih
      | or s ts hne _ ih => exact .or s ts hne ih
    obtain ⟨sims, w3, h7, _⟩ := setup_progress i (subs.set i t') 0 hgood w2
    refine ⟨.or false i (subs.set i t') p sims, .or false (subs.set i t'), w3, ?_⟩
    simp only [PTree.getProver, pm_getStore_bind, pm_setStore_bind, hw, hupd]
    have hww : ({ w with store := σ } : World) = w := by cases w; simp at hw; simp [hw]
    rw [hww]
    simp only [Bool.false_eq_true, if_false]
    have hloop : (PTree.orLoop (PTree.getProverActs subs d) (PTree.candidates subs 0).length
        (PTree.candidates subs 0) subs :
          PM (Option (Nat × CoreProver E) × List (Core E))) w = .ok ((some (i, p), subs.set i t'), w2) := by
      cases hc : (PTree.candidates subs 0).length with
      | zero => exact (hne (List.length_eq_zero_iff.mp hc)).elim
      | succ n =>
        simp only [PTree.orLoop]
        rw [if_neg (by simpa using hne)]
        rw [pm_bind_eq h1]
        simp only [getProverActs_get, ht, Option.map_some]
        rw [pm_bind_eq h4]
        rfl
    rw [pm_bind_eq hloop]
    simp only
    rw [pm_bind_eq h7]
    rfl

end Zksk
