import Verif.Lemmas.Rand

/-! Simulated transcripts satisfy the verification equations (general law, by induction). -/

set_option linter.unusedSectionVars false

namespace Zksk

open Spec

variable {E : Type} [AddCommGroup E] [DecidableEq E]

theorem wellFormedL_iff {ks : List (Core E)} : WellFormedL ks ↔ ∀ k ∈ ks, WellFormed k := by
  induction ks with
  | nil => simp [WellFormedL]
  | cons k ks ih => simp [WellFormedL, ih]

theorem mem_secretsL {ks : List (Core E)} {x : Sec} : x ∈ secretsL ks ↔ ∃ k ∈ ks, x ∈ secrets k := by
  induction ks with
  | nil => simp [secretsL]
  | cons k ks ih => simp [secretsL, ih]

theorem mem_termsL {ks : List (Core E)} {x : Sec × Pt E} : x ∈ termsL ks ↔ ∃ k ∈ ks, x ∈ terms k := by
  induction ks with
  | nil => simp [termsL]
  | cons k ks ih => simp [termsL, ih]

mutual
theorem wf_length : ∀ (k : Core E), WellFormed k → (secrets k).length = (coreBases k).length
  | .leaf s, h => by simpa [WellFormed, secrets, coreBases] using h
  | .and _ subs, h => by simpa [secrets, coreBases] using wfL_length subs h.2
  | .or _ subs, h => by simpa [secrets, coreBases] using wfL_length subs h.2
theorem wfL_length : ∀ (ks : List (Core E)), WellFormedL ks →
    (secretsL ks).length = (coreBasesL ks).length
  | [], _ => rfl
  | k :: ks, h => by
    simp only [secretsL, coreBasesL, List.length_append, wf_length k h.1, wfL_length ks h.2]
end

mutual
theorem wf_terms : ∀ (k : Core E), WellFormed k → terms k = (secrets k).zip (coreBases k)
  | .leaf s, _ => by simp [terms, secrets, coreBases]
  | .and _ subs, h => by simpa [terms, secrets, coreBases] using wfL_terms subs h.2
  | .or _ subs, h => by simpa [terms, secrets, coreBases] using wfL_terms subs h.2
theorem wfL_terms : ∀ (ks : List (Core E)), WellFormedL ks →
    termsL ks = (secretsL ks).zip (coreBasesL ks)
  | [], _ => rfl
  | k :: ks, h => by
    simp only [termsL, secretsL, coreBasesL, wf_terms k h.1, wfL_terms ks h.2]
    rw [List.zip_append (wf_length k h.1)]
end

theorem agree_congr {σ : Store} {k : Core E} {r : Val E} {ρ : Key → Val E} (h : Agree σ k r ρ) :
    ∀ (ρ' : Key → Val E), (∀ x ∈ secrets k, ρ (σ.key x) = ρ' (σ.key x)) → Agree σ k r ρ' := by
  induction h with
  | rep s r ρ h =>
    intro ρ' hρ
    refine .rep s r ρ' fun i x hx => ?_
    rw [h i x hx, hρ x (by simp only [secrets]; exact List.mem_of_getElem? hx)]
  | all sim subs r ρ ri hri h ih =>
    intro ρ' hρ
    refine .all sim subs r ρ' ri hri fun i t ht => ih i t ht ρ' ?_
    intro x hx
    exact hρ x (by simp only [secrets]; exact mem_secretsL.mpr ⟨t, List.mem_of_getElem? ht, hx⟩)
  | any sim subs r rs ρ ri ρi hrs hri h ih =>
    intro ρ' _
    exact .any sim subs r rs ρ' ri ρi hrs hri h

/-- Looking up entries of a Python list. -/
theorem index_list {l : List (Val E)} {i : Nat} {v : Val E} :
    (Val.list l).index i = .ok v ↔ l[i]? = some v := by
  simp only [Val.index]
  split <;> simp_all

theorem coreL_get {L : Type} [StmtOps E L] [StmtView E L] : ∀ {ts : List (Tree L)} {ks : List (Core E)},
    Tree.coreL ts = some ks → ks.length = ts.length ∧
      ∀ (i : Nat) (k : Core E), ks[i]? = some k → ∃ t, ts[i]? = some t ∧ Tree.core t = some k
  | [], ks, h => by
    simp only [Tree.coreL, Option.some.injEq] at h; subst h; simp
  | t :: ts, ks, h => by
    obtain ⟨a, as, h1, h2, rfl⟩ := Tree.coreL_cons.mp h
    obtain ⟨e1, e2⟩ := coreL_get h2
    refine ⟨by simp [e1], fun i k hk => ?_⟩
    cases i with
    | zero => simp at hk; subst hk; exact ⟨t, rfl, h1⟩
    | succ i => simpa using e2 i k (by simpa using hk)

/-- What a simulated transcript for `k` satisfies. -/
def SimLaw (σ : Store) (k : Core E) (sim : Sim E) (d : Option (Dict Int)) (c : Option Int) : Prop :=
  (∀ c0, c = some c0 → sim.challenge = c0) ∧
  Eqns k sim.challenge sim.responses sim.commitment ∧
  ∃ ρ : Key → Int, (∀ d0, d = some d0 → ∀ x ∈ secrets k, ∀ v, Dict.get? σ d0 x = some v →
      ρ (σ.key x) = v) ∧
    Agree σ k sim.responses (fun κ => .int (ρ κ))

theorem challengeOrDraw_ok {c : Option Int} {w w' : World} {c' : Int}
    (h : Tree.challengeOrDraw c w = .ok (c', w')) :
    w'.store = w.store ∧ ∀ c0, c = some c0 → c' = c0 := by
  cases c with
  | none =>
    simp only [Tree.challengeOrDraw, getRandomNum] at h
    exact ⟨(draw_ok h).2.2.2, by simp⟩
  | some c0 =>
    simp only [Tree.challengeOrDraw, pm_pure_iff, Prod.mk.injEq] at h
    exact ⟨by rw [h.2], fun c1 h1 => by rw [← h.1]; exact Option.some.inj h1⟩

theorem lookupAll_ok {σ : Store} {d : Dict Int} : ∀ {vs : List Sec} {rs : List Int},
    DLRep.lookupAll σ d vs = .ok rs → rs.length = vs.length ∧
      ∀ (i : Nat) (x : Sec), vs[i]? = some x → ∃ v, rs[i]? = some v ∧ Dict.get? σ d x = some v
  | [], rs, h => by
    simp only [DLRep.lookupAll, Except.ok.injEq] at h; subst h; simp
  | s :: vs, rs, h => by
    simp only [DLRep.lookupAll] at h
    obtain ⟨v, hv, h⟩ := bind_ok_iff.mp h
    obtain ⟨vs', hvs, h⟩ := bind_ok_iff.mp h
    injection h with h; subst h
    obtain ⟨e1, e2⟩ := lookupAll_ok hvs
    refine ⟨by simp [e1], fun i x hx => ?_⟩
    cases i with
    | zero => simp at hx; subst hx; exact ⟨v, by simp, Dict.get_ok.mp hv⟩
    | succ i => simpa using e2 i x (by simpa using hx)

/-- Responses looked up in one dictionary agree. -/
theorem agree_lookup {σ : Store} {d : Dict Int} {s : DLRep E} {rs : List Int}
    (h : DLRep.lookupAll σ d s.secretVars = .ok rs) :
    Agree σ (.leaf s) (.list (rs.map .int)) (fun κ => .int (Dict.fn σ 0 d κ)) := by
  refine .rep s _ _ fun i x hx => ?_
  obtain ⟨v, hv, hg⟩ := (lookupAll_ok h).2 i x hx
  rw [index_list]
  simp [hv, ← Dict.get?_fn (dflt := 0) hg]

theorem eqns_norm {s : DLRep E} {c : Int} {r com : Val E} :
    Eqns (.leaf s.norm) c r com ↔ Eqns (.leaf s) c r com := by
  rw [← recompute_iff, ← recompute_iff]; rfl

theorem simulate_dlrep (s : DLRep E) {w w' : World} {d : Option (Dict Int)} {c : Option Int}
    {sim : Sim E} (hu : ∀ d0, d = some d0 → d0.Uniq w.store)
    (h : DLRep.simulate s d c w = .ok (sim, w')) :
    w'.store = w.store ∧ SimLaw w.store (.leaf s.norm) sim d c := by
  unfold DLRep.simulate at h
  obtain ⟨d', w1, h1, h⟩ := pm_bind.mp h
  obtain ⟨c', w2, h2, h⟩ := pm_bind.mp h
  rw [pm_getStore_bind, pm_liftE_bind_iff] at h
  obtain ⟨rs, hrs, h⟩ := h
  obtain ⟨com, hcom, h⟩ := pm_liftE_bind_iff.mp h
  rw [pm_pure_iff, Prod.mk.injEq] at h
  obtain ⟨hsim, hw⟩ := h
  obtain ⟨e1, e2, e3⟩ := updateRandomizersWith_ok (vars := s.secretVars)
    (fun w' d' h => DLRep.getRandomizers_ok h) hu h1
  obtain ⟨e4, e5⟩ := challengeOrDraw_ok h2
  have es : w2.store = w.store := e4.trans e1
  rw [es] at hrs
  subst hw; rw [← hsim]
  refine ⟨es, e5, ?_, Dict.fn w.store 0 d', ?_, ?_⟩
  · rw [eqns_norm]; exact (recompute_iff _ _ _ _).mp hcom
  · intro d0 hd0 x _ v hv
    exact (Dict.get?_fn (e3 d0 hd0 x v hv)).symm
  · exact agree_lookup (s := s.norm) hrs

/-- **Simulation law.** -/
theorem simulate_law {L : Type} [StmtOps E L] [StmtView E L]
    (hleaf : ∀ (l : L) (k : Core E), StmtView.core l = some k → WellFormed k →
      ∀ (w w' : World) (d : Option (Dict Int)) (c : Option Int) (sim : Sim E),
      (∀ d0, d = some d0 → d0.Uniq w.store) → StmtOps.simulate l d c w = .ok (sim, w') →
      w'.store = w.store ∧ SimLaw w.store k sim d c) :
    ∀ (t : Tree L) (k : Core E), Tree.core t = some k → WellFormed k →
      ∀ (w w' : World) (d : Option (Dict Int)) (c : Option Int) (sim : Sim E),
      (∀ d0, d = some d0 → d0.Uniq w.store) → Tree.simulate t d c w = .ok (sim, w') →
      w'.store = w.store ∧ SimLaw w.store k sim d c := by
  intro t
  induction t using Tree.ind with
  | leaf l =>
    intro k hk hwf w w' d c sim hu h
    simp only [Tree.simulate] at h
    exact hleaf l k hk hwf w w' d c sim hu h
  | and s subs ih =>
    intro k hk hwf w w' d c sim hu h
    have hvars := Tree.core_vars (.and s subs) k hk
    have hbases := Tree.core_bases (.and s subs) k hk
    rw [secretVars_core] at hvars
    rw [bases_core] at hbases
    have hk0 := hk
    simp only [Tree.core, Option.map_eq_some_iff] at hk
    obtain ⟨ks, hks, rfl⟩ := hk
    have hwf' := wellFormedL_iff.mp hwf.2
    -- the loop
    have loop : ∀ (ts : List (Tree L)) (ks : List (Core E)), (∀ t ∈ ts, t ∈ subs) →
        Tree.coreL ts = some ks → (∀ k ∈ ks, WellFormed k) → ∀ (d : Dict Int) (c : Int) (w w' : World)
        (sims : List (Sim E)), d.Uniq w.store → Tree.simulateAnd ts d c w = .ok (sims, w') →
        w'.store = w.store ∧ sims.length = ks.length ∧ ∀ (i : Nat) (k : Core E) (sim : Sim E),
          ks[i]? = some k → sims[i]? = some sim → SimLaw w.store k sim (some d) (some c) := by
      intro ts
      induction ts with
      | nil =>
        intro ks _ hks _ d c w w' sims _ h
        simp only [Tree.coreL, Option.some.injEq] at hks
        simp only [Tree.simulateAnd, pm_pure_iff, Prod.mk.injEq] at h
        obtain ⟨rfl, rfl⟩ := h
        subst hks
        exact ⟨rfl, rfl, by simp⟩
      | cons t ts ihl =>
        intro ks hm hks hwf d c w w' sims hu h
        obtain ⟨a, as, ha, has, rfl⟩ := Tree.coreL_cons.mp hks
        simp only [Tree.simulateAnd] at h
        obtain ⟨s1, w1, h1, h⟩ := pm_bind.mp h
        obtain ⟨ss, w2, h2, h⟩ := pm_bind.mp h
        rw [pm_pure_iff, Prod.mk.injEq] at h
        obtain ⟨hs, hw⟩ := h
        obtain ⟨e1, e2⟩ := ih t (hm t (by simp)) a ha (hwf a (by simp)) w w1 (some d) (some c) s1
          (fun d0 h0 => by cases h0; exact hu) h1
        obtain ⟨e3, e4, e5⟩ := ihl as (fun t ht => hm t (by simp [ht])) has
          (fun k hk => hwf k (by simp [hk])) d c w1 w2 ss (by rw [e1]; exact hu) h2
        subst hw; subst hs
        refine ⟨e3.trans e1, by simp [e4], fun i k sim hk hsim => ?_⟩
        cases i with
        | zero => simp at hk hsim; subst hk; subst hsim; exact e2
        | succ i =>
          rw [← e1]
          exact e5 i k sim (by simpa using hk) (by simpa using hsim)
    simp only [Tree.simulate] at h
    obtain ⟨d', w1, h1, h⟩ := pm_bind.mp h
    obtain ⟨c', w2, h2, h⟩ := pm_bind.mp h
    obtain ⟨sims, w3, h3, h⟩ := pm_bind.mp h
    rw [pm_pure_iff, Prod.mk.injEq] at h
    obtain ⟨hsim, hw⟩ := h
    unfold Tree.updateRandomizers at h1
    rw [hvars] at h1
    obtain ⟨e1, e2, e3⟩ := updateRandomizersWith_ok
      (fun w' d' h => Tree.getRandomizers_ok hvars hbases (le_of_eq (wf_length _ hwf)) h) hu h1
    obtain ⟨e4, e5⟩ := challengeOrDraw_ok h2
    have es : w2.store = w.store := e4.trans e1
    obtain ⟨e6, e7, e8⟩ := loop subs ks (fun _ h => h) hks hwf' d' c' w2 w3 sims
      (by rw [es]; exact e2.1) h3
    rw [es] at e6 e8
    subst hw; rw [← hsim]
    refine ⟨e6, e5, ?_, Dict.fn w.store 0 d', ?_, ?_⟩
    · refine Eqns.all _ _ _ _ _ (fun i => (sims.map Sim.responses).getD i .none) (by simp [e7]) ?_ ?_
      · intro i hi
        rw [index_list]
        have : i < sims.length := by omega
        simp [this]
      · intro i t com ht hcom
        simp only [List.getElem?_map, Option.map_eq_some_iff] at hcom
        obtain ⟨si, hsi, rfl⟩ := hcom
        obtain ⟨g1, g2, _⟩ := e8 i t si ht hsi
        simpa [hsi, g1 c' rfl] using g2
    · intro d0 hd0 x _ v hv
      exact (Dict.get?_fn (e3 d0 hd0 x v hv)).symm
    · refine Agree.all _ _ _ _ (fun i => (sims.map Sim.responses).getD i .none) ?_ ?_
      · intro i hi
        rw [index_list]
        have : i < sims.length := by omega
        simp [this]
      · intro i t ht
        have hi : i < sims.length := by rw [e7]; exact (List.getElem?_eq_some_iff.mp ht).1
        obtain ⟨_, _, ρ, g1, g2⟩ := e8 i t _ ht (List.getElem?_eq_getElem hi)
        have : (sims.map Sim.responses).getD i .none = sims[i].responses := by simp [hi]
        simp only [this]
        refine agree_congr g2 _ fun x hx => ?_
        obtain ⟨v, hv⟩ := e2.2 x (by
          simp only [coreVars, secrets]; exact mem_secretsL.mpr ⟨t, List.mem_of_getElem? ht, hx⟩)
        rw [g1 d' rfl x hx v hv, ← Dict.get?_fn hv]
  | or s subs ih =>
    intro k hk hwf w w' d c sim hu h
    simp only [Tree.core, Option.map_eq_some_iff] at hk
    obtain ⟨ks, hks, rfl⟩ := hk
    have hwf' := wellFormedL_iff.mp hwf.2
    have loop : ∀ (ts : List (Tree L)) (ks : List (Core E)), (∀ t ∈ ts, t ∈ subs) →
        Tree.coreL ts = some ks → (∀ k ∈ ks, WellFormed k) → ∀ (c : Int) (acc : List Int) (w w' : World)
        (sims : List (Sim E)), Tree.simulateOr ts c acc w = .ok (sims, w') →
        w'.store = w.store ∧ sims.length = ks.length ∧ (∀ (i : Nat) (k : Core E) (sim : Sim E),
          ks[i]? = some k → sims[i]? = some sim → ∃ c', SimLaw w.store k sim none c') ∧
          (ts ≠ [] → (acc.sum + (sims.map Sim.challenge).sum) % 2 ^ 128 = c % 2 ^ 128) := by
      intro ts
      induction ts with
      | nil =>
        intro ks _ hks _ c acc w w' sims h
        simp only [Tree.coreL, Option.some.injEq] at hks
        simp only [Tree.simulateOr, pm_pure_iff, Prod.mk.injEq] at h
        obtain ⟨rfl, rfl⟩ := h
        subst hks
        exact ⟨rfl, rfl, by simp, by simp⟩
      | cons t ts ihl =>
        intro ks hm hks hwf c acc w w' sims h
        obtain ⟨a, as, ha, has, rfl⟩ := Tree.coreL_cons.mp hks
        have hnil : ∀ d0, (none : Option (Dict Int)) = some d0 → d0.Uniq w.store := by simp
        cases ts with
        | nil =>
          simp only [Tree.simulateOr] at h
          obtain ⟨s1, w1, h1, h⟩ := pm_bind.mp h
          rw [pm_pure_iff, Prod.mk.injEq] at h
          obtain ⟨hs, hw⟩ := h
          obtain ⟨e1, e2⟩ := ih t (hm t (by simp)) a ha (hwf a (by simp)) w w1 none _ s1 hnil h1
          simp only [Tree.coreL, Option.some.injEq] at has
          subst hw; subst hs; subst has
          refine ⟨e1, rfl, fun i k sim hk hsim => ?_, fun _ => ?_⟩
          · cases i with
            | zero => simp at hk hsim; subst hk; subst hsim; exact ⟨_, e2⟩
            | succ i => simp at hk
          · have := e2.1 _ rfl
            simp only [List.map_cons, List.map_nil, List.sum_cons, List.sum_nil, add_zero, this]
            have h3 := findResidual_eq acc c challengeLength
            simp only [challengeLength] at h3 ⊢
            rw [h3]
            omega
        | cons t2 ts =>
          simp only [Tree.simulateOr] at h
          obtain ⟨s1, w1, h1, h⟩ := pm_bind.mp h
          obtain ⟨ss, w2, h2, h⟩ := pm_bind.mp h
          rw [pm_pure_iff, Prod.mk.injEq] at h
          obtain ⟨hs, hw⟩ := h
          obtain ⟨e1, e2⟩ := ih t (hm t (by simp)) a ha (hwf a (by simp)) w w1 none none s1 hnil h1
          obtain ⟨e3, e4, e5, e6⟩ := ihl as (fun t ht => hm t (List.mem_cons_of_mem _ ht)) has
            (fun k hk => hwf k (by simp [hk])) c (acc ++ [s1.challenge]) w1 w2 ss h2
          subst hw; subst hs
          refine ⟨e3.trans e1, by simp [e4], fun i k sim hk hsim => ?_, fun _ => ?_⟩
          · cases i with
            | zero => simp at hk hsim; subst hk; subst hsim; exact ⟨_, e2⟩
            | succ i =>
              rw [← e1]
              exact e5 i k sim (by simpa using hk) (by simpa using hsim)
          · have := e6 (by simp)
            rw [← this]
            simp only [List.map_cons, List.sum_cons, List.sum_append, List.sum_nil, add_zero]
            congr 1
            omega
    simp only [Tree.simulate] at h
    obtain ⟨c', w1, h1, h⟩ := pm_bind.mp h
    obtain ⟨sims, w2, h2, h⟩ := pm_bind.mp h
    rw [pm_pure_iff, Prod.mk.injEq] at h
    obtain ⟨hsim, hw⟩ := h
    obtain ⟨e4, e5⟩ := challengeOrDraw_ok h1
    obtain ⟨e6, e7, e8, e9⟩ := loop subs ks (fun _ h => h) hks hwf' c' [] w1 w2 sims h2
    rw [e4] at e6 e8
    have hne : subs ≠ [] := by
      rintro rfl
      simp only [Tree.coreL, Option.some.injEq] at hks
      exact hwf.1 hks.symm
    have hget : ∀ i, i < ks.length →
        (Val.list (sims.map Sim.responses)).index i = .ok ((sims.map Sim.responses).getD i .none) := by
      intro i hi
      rw [index_list]
      have : i < sims.length := by omega
      simp [this]
    subst hw; rw [← hsim]
    refine ⟨e6, e5, ?_, ?_⟩
    · refine Eqns.any _ _ _ _ (.list (sims.map Sim.responses)) (sims.map Sim.challenge) _
        (fun i => (sims.map Sim.responses).getD i .none) ?_ ?_ ?_ (by simp [e7]) (by simp [e7]) hget ?_
      · simp only [Val.index, List.map_map, List.getElem?_cons_zero]; rfl
      · rfl
      · simpa using e9 hne
      · intro i t com ci ht hcom hci
        simp only [List.getElem?_map, Option.map_eq_some_iff] at hcom hci
        obtain ⟨si, hsi, rfl⟩ := hcom
        obtain ⟨si', hsi', rfl⟩ := hci
        rw [hsi] at hsi'; cases hsi'
        obtain ⟨_, g1, g2, _⟩ := e8 i t si ht hsi
        simpa [hsi] using g2
    · refine ⟨fun κ => (d.map fun d0 => Dict.fn w.store 0 d0 κ).getD 0, ?_, ?_⟩
      · intro d0 hd0 x _ v hv
        simp only [hd0, Option.map_some, Option.getD_some]
        exact (Dict.get?_fn hv).symm
      · have : ∀ (i : Nat) (t : Core E), ks[i]? = some t → ∃ ρ : Key → Val E,
            Agree w.store t ((sims.map Sim.responses).getD i .none) ρ := by
          intro i t ht
          have hi : i < sims.length := by rw [e7]; exact (List.getElem?_eq_some_iff.mp ht).1
          obtain ⟨_, _, _, ρ, g1, g2⟩ := e8 i t _ ht (List.getElem?_eq_getElem hi)
          exact ⟨_, by simpa [hi] using g2⟩
        have hch : ∃ ρi : Nat → Key → Val E, ∀ (i : Nat) (t : Core E), ks[i]? = some t →
            Agree w.store t ((sims.map Sim.responses).getD i .none) (ρi i) := by
          classical
          refine ⟨fun i => if h : ∃ ρ : Key → Val E, ∃ t, ks[i]? = some t ∧
            Agree w.store t ((sims.map Sim.responses).getD i .none) ρ then h.choose else fun _ => .none, ?_⟩
          intro i t ht
          obtain ⟨ρ, hρ⟩ := this i t ht
          have hex : ∃ ρ : Key → Val E, ∃ t, ks[i]? = some t ∧
            Agree w.store t ((sims.map Sim.responses).getD i .none) ρ := ⟨ρ, t, ht, hρ⟩
          simp only [dif_pos hex]
          obtain ⟨t', ht', h'⟩ := hex.choose_spec
          rw [ht] at ht'; cases ht'
          exact h'
        obtain ⟨ρi, hρi⟩ := hch
        exact Agree.any _ _ _ (.list (sims.map Sim.responses)) _ _ ρi (fun _ => rfl) hget hρi

/-- Simulation law for plain statements. -/
theorem simulate_core (t k : Core E) (hk : Tree.core t = some k) (hwf : WellFormed k)
    {w w' : World} {d : Option (Dict Int)} {c : Option Int} {sim : Sim E}
    (hu : ∀ d0, d = some d0 → d0.Uniq w.store) (h : Tree.simulate t d c w = .ok (sim, w')) :
    w'.store = w.store ∧ SimLaw w.store k sim d c := by
  refine simulate_law (L := DLRep E) ?_ t k hk hwf w w' d c sim hu h
  intro l k hk _ w w' d c sim hu h
  simp only [StmtView.core, Option.some.injEq] at hk
  subst hk
  exact simulate_dlrep l hu h

/-- Simulation law for general statements. -/
theorem simulate_stmt (t : Stmt E) (k : Core E) (hk : Tree.core t = some k) (hwf : WellFormed k)
    {w w' : World} {d : Option (Dict Int)} {c : Option Int} {sim : Sim E}
    (hu : ∀ d0, d = some d0 → d0.Uniq w.store) (h : Tree.simulate t d c w = .ok (sim, w')) :
    w'.store = w.store ∧ SimLaw w.store k sim d c := by
  refine simulate_law (L := Leaf E) ?_ t k hk hwf w w' d c sim hu h
  intro l k hk hwf w w' d c sim hu h
  cases l with
  | dlrep s =>
    simp only [StmtView.core, Option.some.injEq] at hk
    subst hk
    exact simulate_dlrep s hu h
  | ext s =>
    simp only [StmtView.core, Option.bind_eq_some_iff] at hk
    obtain ⟨t, ht, hk⟩ := hk
    simp only [StmtOps.simulate, Ext.simulate] at h
    obtain ⟨t', ht', h⟩ := pm_liftE_bind_iff.mp h
    simp only [Ext.inner, ht, Except.ok.injEq] at ht'
    subst ht'
    obtain ⟨tr, w1, h1, h⟩ := pm_bind.mp h
    rw [pm_pure_iff, Prod.mk.injEq] at h
    obtain ⟨hsim, hw⟩ := h
    subst hw; rw [← hsim]
    have := simulate_core t k hk hwf hu h1
    exact this

end Zksk
