import Verif.SpecNested
import Verif.Lemmas.Monad

/-! # Lemmas on extended statements that construct extended statements -/

set_option linter.unusedSectionVars false

namespace Zksk

variable {E : Type} [AddCommGroup E] [DecidableEq E]

open Spec

section
variable {L : Type} [StmtOps E L]

/-! ### A leaf whose verifier never agrees -/

/-- The verifier of the leaf never finds responses consistent. -/
def Silent (l : L) : Prop := ∀ σ r d d', StmtOps.consistency (E := E) σ l r d ≠ .ok (true, d')

theorem consistencyAnd_silent {σ : Store} : ∀ {ts : List (Tree L)} {t : Tree L} {i : Nat} {r : Val E} {d d' : Dict (Val E)},
    t ∈ ts → (∀ r d d', Tree.consistency σ t r d ≠ .ok (true, d')) → Tree.consistencyAnd σ ts i r d ≠ .ok (true, d')
  | [], _, _, _, _, _, h, _ => by cases h
  | a :: as, t, i, r, d, d', h, hs => by
    intro hc
    simp only [Tree.consistencyAnd, bind, Except.bind] at hc
    split at hc
    · cases hc
    · split at hc
      · cases hc
      · rename_i x hx
        obtain ⟨b, d1⟩ := x
        cases b with
        | false => simp at hc
        | true =>
          simp only [if_true] at hc
          rcases List.mem_cons.mp h with rfl | h'
          · exact hs _ _ _ hx
          · exact consistencyAnd_silent h' hs hc

theorem consistencyOr_silent {σ : Store} : ∀ {ts : List (Tree L)} {t : Tree L} {i : Nat} {r : Val E},
    t ∈ ts → (∀ r d d', Tree.consistency σ t r d ≠ .ok (true, d')) → Tree.consistencyOr σ ts i r ≠ .ok true
  | [], _, _, _, h, _ => by cases h
  | a :: as, t, i, r, h, hs => by
    intro hc
    simp only [Tree.consistencyOr, bind, Except.bind] at hc
    split at hc
    · cases hc
    · split at hc
      · cases hc
      · split at hc
        · cases hc
        · rename_i x hx
          obtain ⟨b, d1⟩ := x
          cases b with
          | false => simp at hc
          | true =>
            simp only [if_true] at hc
            rcases List.mem_cons.mp h with rfl | h'
            · exact hs _ _ _ hx
            · exact consistencyOr_silent h' hs hc

theorem consistency_silent {t : Tree L} {l : L} (h : Part t l) (hl : Silent (E := E) l) (σ : Store) :
    ∀ (r : Val E) (d d' : Dict (Val E)), Tree.consistency σ t r d ≠ .ok (true, d') := by
  induction h with
  | leaf l => intro r d d'; exact hl σ r d d'
  | and hm _ ih => intro r d d'; simp only [Tree.consistency]; exact consistencyAnd_silent hm (ih hl)
  | or hm _ ih =>
    intro r d d' hc
    simp only [Tree.consistency, bind, Except.bind] at hc
    split at hc
    · cases hc
    · rename_i b hb
      cases b with
      | false => simp at hc
      | true => exact consistencyOr_silent hm (ih hl) hb

theorem preVerification_silent {t : Tree L} {l : L} (h : Part t l) (hl : Silent (E := E) l) (σ : Store) (r : Val E) :
    ∃ e, preVerification σ t r = .error e := by
  unfold preVerification
  cases Tree.fullValidate t with
  | error e => exact ⟨e, rfl⟩
  | ok u =>
    simp only [bind, Except.bind]
    cases hc : Tree.consistency σ t r [] with
    | error e => exact ⟨e, rfl⟩
    | ok x =>
      obtain ⟨b, d⟩ := x
      cases b with
      | false => exact ⟨_, rfl⟩
      | true => exact absurd hc (consistency_silent h hl σ r [] d)

/-! ### What happens to the leaves -/

theorem mem_freshVerifierL {t : Tree L} : ∀ {ts : List (Tree L)}, t ∈ ts → t.freshVerifier ∈ Tree.freshVerifierL ts
  | _ :: _, h => by
    simp only [Tree.freshVerifierL, List.mem_cons] at h ⊢
    rcases h with rfl | h
    · exact .inl rfl
    · exact .inr (mem_freshVerifierL h)

theorem part_freshVerifier {t : Tree L} {l : L} (h : Part t l) : Part t.freshVerifier (StmtOps.freshVerifier l) := by
  induction h with
  | leaf l => exact .leaf _
  | and hm _ ih => exact .and (mem_freshVerifierL hm) ih
  | or hm _ ih => exact .or (mem_freshVerifierL hm) ih

theorem mem_processL {σ : Store} {t : Tree L} : ∀ {ts ts' : List (Tree L)} {i : Nat} {v : Val E}, t ∈ ts →
    Tree.processL σ ts i v = .ok ts' → ∃ vi t', t' ∈ ts' ∧ Tree.process σ t vi = .ok t'
  | a :: as, ts', i, v, h, hp => by
    simp only [Tree.processL, bind, Except.bind] at hp
    split at hp
    · cases hp
    · rename_i vi _
      split at hp
      · cases hp
      · rename_i a' ha
        split at hp
        · cases hp
        · rename_i as' has
          cases hp
          rcases List.mem_cons.mp h with rfl | h'
          · exact ⟨vi, a', List.mem_cons_self, ha⟩
          · obtain ⟨vi', t', hm, ht⟩ := mem_processL h' has
            exact ⟨vi', t', List.mem_cons_of_mem _ hm, ht⟩

/-- A leaf receives a precommitment, or nothing. -/
theorem part_process {σ : Store} {t : Tree L} {l : L} (h : Part t l) :
    ∀ {v : Val E} {t' : Tree L}, Tree.process σ t v = .ok t' →
      ∃ l', Part t' l' ∧ (l' = l ∨ ∃ w, StmtOps.process σ l w = .ok l') := by
  induction h with
  | leaf l =>
    intro v t' hp
    simp only [Tree.process, bind, Except.bind] at hp
    split at hp
    · cases hp
    · rename_i l' hl
      cases hp
      exact ⟨l', .leaf _, .inr ⟨v, hl⟩⟩
  | @and s subs t0 l hm hpart ih =>
    intro v t' hp
    simp only [Tree.process] at hp
    split at hp
    · cases hp; exact ⟨l, .and hm hpart, .inl rfl⟩
    · simp only [bind, Except.bind] at hp
      split at hp
      · cases hp
      · rename_i subs' hs
        cases hp
        obtain ⟨vi, t1, hm1, h1⟩ := mem_processL hm hs
        obtain ⟨l', hl', hor⟩ := ih h1
        exact ⟨l', .and hm1 hl', hor⟩
  | @or s subs t0 l hm hpart ih =>
    intro v t' hp
    simp only [Tree.process] at hp
    split at hp
    · cases hp; exact ⟨l, .or hm hpart, .inl rfl⟩
    · simp only [bind, Except.bind] at hp
      split at hp
      · cases hp
      · rename_i subs' hs
        cases hp
        obtain ⟨vi, t1, hm1, h1⟩ := mem_processL hm hs
        obtain ⟨l', hl', hor⟩ := ih h1
        exact ⟨l', .or hm1 hl', hor⟩

/-! ### A leaf that cannot be simulated -/

/-- Neither the secrets of the leaf can be asked for nor can it be simulated. -/
def Broken (l : L) : Prop :=
  (∃ e, StmtOps.secretVars (E := E) l = .error e) ∧
    ∀ d c w, ∃ e, StmtOps.simulate (E := E) l d c w = .error e

theorem secretVarsL_error {t : Tree L} (ht : ∃ e, Tree.secretVars t = .error e) : ∀ {ts : List (Tree L)}, t ∈ ts →
    ∃ e, Tree.secretVarsL ts = .error e
  | a :: as, h => by
    simp only [Tree.secretVarsL]
    cases ha : Tree.secretVars a with
    | error e => exact ⟨e, rfl⟩
    | ok x =>
      rcases List.mem_cons.mp h with rfl | h'
      · obtain ⟨e, he⟩ := ht; rw [he] at ha; cases ha
      · obtain ⟨e, he⟩ := secretVarsL_error ht h'
        exact ⟨e, by simp only [bind, Except.bind, he]⟩

theorem secretVars_broken {t : Tree L} {l : L} (h : Part t l) (hl : Broken (E := E) l) :
    ∃ e, Tree.secretVars t = .error e := by
  induction h with
  | leaf l => exact hl.1
  | and hm _ ih => exact secretVarsL_error (ih hl) hm
  | or hm _ ih => exact secretVarsL_error (ih hl) hm

theorem bind_error {α β : Type} {m : PM α} {f : α → PM β} {w : World}
    (h : ∀ a w', m w = .ok (a, w') → ∃ e, f a w' = .error e) : ∃ e, (m >>= f) w = .error e := by
  cases hm : m w with
  | error e => exact ⟨e, by show Except.bind (m w) _ = _; rw [hm]; rfl⟩
  | ok x =>
    obtain ⟨a, w'⟩ := x
    obtain ⟨e, he⟩ := h a w' hm
    refine ⟨e, ?_⟩
    show Except.bind (m w) _ = _
    rw [hm]
    exact he

theorem simulateOr_broken {t : Tree L} (ht : ∀ d c w, ∃ e, Tree.simulate t d c w = .error e) :
    ∀ {ts : List (Tree L)}, t ∈ ts → ∀ c acc w, ∃ e, Tree.simulateOr ts c acc w = .error e
  | [a], h, c, acc, w => by
    rcases List.mem_singleton.mp h with rfl
    simp only [Tree.simulateOr]
    refine bind_error fun s w' hs => ?_
    obtain ⟨e, he⟩ := ht none (some (findResidualChallenge acc c challengeLength)) w
    rw [he] at hs; cases hs
  | a :: b :: as, h, c, acc, w => by
    simp only [Tree.simulateOr]
    refine bind_error fun s w' hs => ?_
    rcases List.mem_cons.mp h with rfl | h'
    · obtain ⟨e, he⟩ := ht none none w
      rw [he] at hs; cases hs
    · exact bind_error fun ss w'' hss => by
        obtain ⟨e, he⟩ := simulateOr_broken ht h' c (acc ++ [s.challenge]) w'
        rw [he] at hss; cases hss

theorem simulate_broken {t : Tree L} {l : L} (h : Part t l) (hl : Broken (E := E) l) :
    ∀ d c w, ∃ e, Tree.simulate t d c w = .error e := by
  induction h with
  | leaf l => exact hl.2
  | @and s subs t0 l hm hpart ih =>
    intro d c w
    obtain ⟨ev, hev⟩ := secretVars_broken (Part.and (s := s) hm hpart) hl
    simp only [Tree.simulate]
    refine bind_error fun d' w' hd => ?_
    exfalso
    unfold Tree.updateRandomizers at hd
    rw [hev] at hd
    cases d with
    | none =>
      simp only [Tree.updateRandomizersWith, Tree.getRandomizers, hev] at hd
      cases hd
    | some d0 => simp only [Tree.updateRandomizersWith] at hd; cases hd
  | or hm _ ih =>
    intro d c w
    simp only [Tree.simulate]
    exact bind_error fun c' w' _ => bind_error fun ss w'' hss => by
      obtain ⟨e, he⟩ := simulateOr_broken (ih hl) hm c' [] w'
      rw [he] at hss; cases hss

theorem mem_prepareSimL {t : Tree L} : ∀ {ts ts' : List (Tree L)} {w w' : World}, t ∈ ts →
    Tree.prepareSimL ts w = .ok (ts', w') → ∃ t' w1 w2, t' ∈ ts' ∧ Tree.prepareSim t w1 = .ok (t', w2)
  | a :: as, ts', w, w', h, hp => by
    simp only [Tree.prepareSimL] at hp
    obtain ⟨a', w1, ha, hp⟩ := pm_bind.mp hp
    obtain ⟨as', w2, has, hp⟩ := pm_bind.mp hp
    rw [pm_pure_iff] at hp
    obtain ⟨rfl, rfl⟩ := Prod.mk.injEq .. ▸ hp
    rcases List.mem_cons.mp h with rfl | h'
    · exact ⟨a', w, w1, List.mem_cons_self, ha⟩
    · obtain ⟨t', w3, w4, hm, ht⟩ := mem_prepareSimL h' has
      exact ⟨t', w3, w4, List.mem_cons_of_mem _ hm, ht⟩

theorem part_prepareSim {t : Tree L} {l : L} (h : Part t l) : ∀ {w w' : World} {t' : Tree L},
    Tree.prepareSim t w = .ok (t', w') → ∃ l' w1 w2, Part t' l' ∧ StmtOps.prepareSim l w1 = .ok (l', w2) := by
  induction h with
  | leaf l =>
    intro w w' t' hp
    simp only [Tree.prepareSim] at hp
    obtain ⟨l', w1, hl, hp⟩ := pm_bind.mp hp
    rw [pm_pure_iff] at hp
    obtain ⟨rfl, rfl⟩ := Prod.mk.injEq .. ▸ hp
    exact ⟨l', w, w1, .leaf _, hl⟩
  | and hm _ ih =>
    intro w w' t' hp
    simp only [Tree.prepareSim] at hp
    obtain ⟨ts', w1, hl, hp⟩ := pm_bind.mp hp
    rw [pm_pure_iff] at hp
    obtain ⟨rfl, rfl⟩ := Prod.mk.injEq .. ▸ hp
    obtain ⟨t1, w2, w3, hm1, h1⟩ := mem_prepareSimL hm hl
    obtain ⟨l', w4, w5, hl', hs⟩ := ih h1
    exact ⟨l', w4, w5, .and hm1 hl', hs⟩
  | or hm _ ih =>
    intro w w' t' hp
    simp only [Tree.prepareSim] at hp
    obtain ⟨ts', w1, hl, hp⟩ := pm_bind.mp hp
    rw [pm_pure_iff] at hp
    obtain ⟨rfl, rfl⟩ := Prod.mk.injEq .. ▸ hp
    obtain ⟨t1, w2, w3, hm1, h1⟩ := mem_prepareSimL hm hl
    obtain ⟨l', w4, w5, hl', hs⟩ := ih h1
    exact ⟨l', w4, w5, .or hm1 hl', hs⟩

theorem mem_setSimulated {t : Tree L} {l : L} (v : Bool) (h : Part t l) :
    ∃ l', Part (t.setSimulated v) l' ∧ (l' = l ∨ l' = StmtOps.setSimulated v l) := by
  cases h with
  | leaf l => exact ⟨_, .leaf _, .inr rfl⟩
  | and hm h => exact ⟨l, .and hm h, .inl rfl⟩
  | or hm h => exact ⟨l, .or hm h, .inl rfl⟩

end

end Zksk
