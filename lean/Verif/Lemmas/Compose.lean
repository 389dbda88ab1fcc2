import Verif.Lemmas.Precommit

/-! Composition rules checked by provers. -/

set_option linter.unusedSectionVars false

namespace Zksk

open Spec

variable {E : Type} [AddCommGroup E] [DecidableEq E]

theorem secretsL_append (as bs : List (Core E)) : secretsL (as ++ bs) = secretsL as ++ secretsL bs := by
  induction as with
  | nil => rfl
  | cons a as ih => simp [secretsL, ih]

theorem orAt_secrets {t u : Core E} {pre post : List Sec} (h : OrAt t pre u post) :
    secrets t = pre ++ secrets u ++ post := by
  induction h with
  | here b subs => simp
  | down b ls t rs pre post u h ih => simp [secrets, secretsL_append, secretsL, ih]

theorem orAt_or {t u : Core E} {pre post : List Sec} (h : OrAt t pre u post) :
    ∃ b subs, u = .or b subs := by
  induction h with
  | here b subs => exact ⟨b, subs, rfl⟩
  | down b ls t rs pre post u h ih => exact ih

theorem countKey_append (σ : Store) (l m : List Sec) (s : Sec) :
    Tree.countKey σ (l ++ m) s = Tree.countKey σ l s + Tree.countKey σ m s := by
  simp [Tree.countKey]

theorem countKey_pos {σ : Store} {l : List Sec} {s : Sec} :
    0 < Tree.countKey σ l s ↔ ∃ y ∈ l, σ.key s = σ.key y := by
  unfold Tree.countKey
  rw [List.length_pos_iff_exists_mem]
  constructor
  · rintro ⟨y, hy⟩
    rw [List.mem_filter, decide_eq_true_eq] at hy
    exact ⟨y, hy.1, hy.2.symm⟩
  · rintro ⟨y, h1, h2⟩
    exact ⟨y, List.mem_filter.mpr ⟨h1, by simp [h2]⟩⟩

/-- Reachable disjunctions with a secret that is more frequent in `forbidden`. -/
def Clash (σ : Store) (forbidden : List Sec) (t : Core E) : Prop :=
  ∃ pre u post, OrAt t pre u post ∧ ∃ x ∈ secrets u,
    Tree.countKey σ forbidden x > Tree.countKey σ (secrets u) x

theorem reoccur_cases (σ : Store) (forbidden : List Sec) : ∀ (t : Core E),
    (Tree.reoccur σ forbidden t = .ok () ∧ ¬ Clash σ forbidden t) ∨
    (Tree.reoccur σ forbidden t = .error .invalidSecrets ∧ Clash σ forbidden t) := by
  intro t
  induction t using Tree.ind with
  | leaf s =>
    refine .inl ⟨rfl, ?_⟩
    rintro ⟨pre, u, post, h, _⟩
    cases h
  | or b subs _ =>
    simp only [Tree.reoccur, secretVarsL_core, bind_ok]
    split
    · rename_i h
      refine .inr ⟨rfl, ?_⟩
      rw [List.any_eq_true] at h
      obtain ⟨x, hx, h⟩ := h
      exact ⟨[], .or b subs, [], .here b subs, x, hx, by simpa [secrets] using h⟩
    · rename_i h
      refine .inl ⟨rfl, ?_⟩
      rintro ⟨pre, u, post, h', x, hx, hc⟩
      cases h' with
      | here b subs =>
        apply h
        rw [List.any_eq_true]
        exact ⟨x, hx, by simpa [secrets] using hc⟩
  | and b subs ih =>
    simp only [Tree.reoccur]
    have hrec : ∀ (ts : List (Core E)), (∀ t ∈ ts, t ∈ subs) →
        (Tree.reoccurL σ forbidden ts = .ok () ∧ ∀ t ∈ ts, ¬ Clash σ forbidden t) ∨
        (Tree.reoccurL σ forbidden ts = .error .invalidSecrets ∧ ∃ t ∈ ts, Clash σ forbidden t) := by
      intro ts
      induction ts with
      | nil => intro _; exact .inl ⟨rfl, by simp⟩
      | cons t ts iht =>
        intro hm
        simp only [Tree.reoccurL]
        rcases ih t (hm t (by simp)) with ⟨h1, h2⟩ | ⟨h1, h2⟩
        · rw [h1, bind_ok]
          rcases iht fun t ht => hm t (by simp [ht]) with ⟨h3, h4⟩ | ⟨h3, t', ht', h4⟩
          · refine .inl ⟨h3, fun t' ht' => ?_⟩
            rcases List.mem_cons.mp ht' with rfl | ht'
            · exact h2
            · exact h4 t' ht'
          · exact .inr ⟨h3, t', by simp [ht'], h4⟩
        · rw [h1, bind_err]
          exact .inr ⟨rfl, t, by simp, h2⟩
    rcases hrec subs fun t ht => ht with ⟨h1, h2⟩ | ⟨h1, t, ht, h2⟩
    · refine .inl ⟨h1, ?_⟩
      rintro ⟨pre, u, post, h, hx⟩
      cases h with
      | down b ls t rs pre post u h =>
        exact h2 t (by simp) ⟨pre, u, post, h, hx⟩
    · refine .inr ⟨h1, ?_⟩
      obtain ⟨pre, u, post, h, hx⟩ := h2
      obtain ⟨ls, rs, rfl⟩ := List.append_of_mem ht
      exact ⟨_, u, _, .down b ls t rs pre post u h, hx⟩

theorem clash_iff {σ : Store} {t : Core E} : Clash σ (secrets t) t ↔ ¬ OrsPrivate σ t := by
  unfold OrsPrivate
  constructor
  · rintro ⟨pre, u, post, h, x, hx, hc⟩ hp
    rw [orAt_secrets h, countKey_append, countKey_append] at hc
    have : 0 < Tree.countKey σ (pre ++ post) x := by rw [countKey_append]; omega
    obtain ⟨y, hy, e⟩ := countKey_pos.mp this
    exact hp pre u post h x hx y hy e
  · intro hp
    by_contra hcon
    apply hp
    intro pre u post h x hx y hy e
    apply hcon
    refine ⟨pre, u, post, h, x, hx, ?_⟩
    rw [orAt_secrets h, countKey_append, countKey_append]
    have : 0 < Tree.countKey σ (pre ++ post) x := countKey_pos.mpr ⟨y, hy, e⟩
    rw [countKey_append] at this
    omega

/-! ### The plain statement behind a statement without extended parts -/

mutual
theorem core_blank : ∀ (t : Core E), Tree.core t = some (Tree.blank t)
  | .leaf s => rfl
  | .and _ subs => by simp [Tree.core, Tree.blank, coreL_blank subs]
  | .or _ subs => by simp [Tree.core, Tree.blank, coreL_blank subs]
theorem coreL_blank : ∀ (ts : List (Core E)), Tree.coreL ts = some (Tree.blankL ts)
  | [] => rfl
  | t :: ts => Tree.coreL_cons.mpr ⟨_, _, core_blank t, coreL_blank ts, rfl⟩
end

mutual
theorem terms_blank : ∀ (t : Core E), terms (Tree.blank t) = terms t
  | .leaf s => rfl
  | .and _ subs => by simp [terms, Tree.blank, termsL_blank subs]
  | .or _ subs => by simp [terms, Tree.blank, termsL_blank subs]
theorem termsL_blank : ∀ (ts : List (Core E)), termsL (Tree.blankL ts) = termsL ts
  | [] => rfl
  | t :: ts => by simp [termsL, Tree.blankL, terms_blank t, termsL_blank ts]
end

mutual
theorem wf_blank : ∀ (t : Core E), WellFormed (Tree.blank t) ↔ WellFormed t
  | .leaf s => Iff.rfl
  | .and _ subs => by
    simp only [WellFormed, Tree.blank, wfL_blank subs]
    cases subs <;> simp [Tree.blankL]
  | .or _ subs => by
    simp only [WellFormed, Tree.blank, wfL_blank subs]
    cases subs <;> simp [Tree.blankL]
theorem wfL_blank : ∀ (ts : List (Core E)), WellFormedL (Tree.blankL ts) ↔ WellFormedL ts
  | [] => Iff.rfl
  | t :: ts => by simp [WellFormedL, Tree.blankL, wf_blank t, wfL_blank ts]
end

/-- `validate_group_orders` on a statement without extended parts. -/
theorem validateGroupOrders_core (σ : Store) (t : Core E) (hwf : WellFormed t) :
    (Tree.validateGroupOrders σ t = .ok () ∧ SameOrders σ t) ∨
    (Tree.validateGroupOrders σ t = .error .groupMismatch ∧ ¬ SameOrders σ t) := by
  have := validateGroupOrders_cases σ t _ (core_blank t) ((wf_blank t).mpr hwf)
  simpa only [SameOrders, terms_blank] using this

/-- The three outcomes of `validate_composition` on a conjunction. -/
theorem validate_and_cases (σ : Store) (b : Bool) (subs : List (Core E)) (hwf : WellFormed (.and b subs)) :
    (Tree.validateComposition σ (.and b subs) = .error .groupMismatch ∧ ¬ SameOrders σ (.and b subs)) ∨
    (Tree.validateComposition σ (.and b subs) = .error .invalidSecrets ∧
      SameOrders σ (.and b subs) ∧ ¬ OrsPrivate σ (.and b subs)) ∨
    (Tree.validateComposition σ (.and b subs) = .ok () ∧
      SameOrders σ (.and b subs) ∧ OrsPrivate σ (.and b subs)) := by
  simp only [Tree.validateComposition]
  rcases validateGroupOrders_core σ _ hwf with ⟨h1, h2⟩ | ⟨h1, h2⟩
  · right
    rw [h1, bind_ok, secretVarsL_core, bind_ok]
    rcases reoccur_cases σ (secretsL subs) (.and b subs) with ⟨h3, h4⟩ | ⟨h3, h4⟩
    · right
      have h5 := clash_iff.not.mp h4
      rw [not_not] at h5
      exact ⟨h3, h2, h5⟩
    · left
      exact ⟨h3, h2, clash_iff.mp h4⟩
  · left
    rw [h1, bind_err]
    exact ⟨rfl, h2⟩

/-- The two outcomes of `validate_composition` on a disjunction. -/
theorem validate_or_cases (σ : Store) (b : Bool) (subs : List (Core E)) (hwf : WellFormed (.or b subs)) :
    (Tree.validateComposition σ (.or b subs) = .ok () ∧ SameOrders σ (.or b subs)) ∨
    (Tree.validateComposition σ (.or b subs) = .error .groupMismatch ∧ ¬ SameOrders σ (.or b subs)) :=
  validateGroupOrders_core σ _ hwf

end Zksk
