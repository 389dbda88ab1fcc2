import Verif.Props.PretendStmt

/-! # C97: witness indistinguishability for compositions with primitives and disjunctions -/

set_option linter.unusedSectionVars false

namespace Zksk.Props

open Spec

variable {E : Type} [AddCommGroup E] [DecidableEq E]

/-- Somebody who can prove a statement can be an outsider for another prover. -/
theorem outsider_of_plan {F : Profile E} {q : Nat} {Z : ExtSpec E → Val E → Prop} {σ : Store} {d : Dict Int}
    {t t' : Stmt E} (h : SamePlan t t') : ProvedLeaf (LeafTrue F q σ d Z) t' → Outsider σ d t t' := by
  induction h with
  | leaf l l' h =>
    intro hp
    cases l with
    | dlrep s =>
      cases l' with
      | ext s' => cases h
      | dlrep s' =>
        refine .rep s s' h fun x hx => ?_
        cases hp with
        | leaf _ hp =>
          cases hp with
          | rep _ hv _ => rw [hv x hx]; rfl
    | ext s =>
      cases l' with
      | dlrep s' => cases h
      | ext s' => exact .ext s s' h
  | all subs subs' hl _ ih =>
    intro hp
    cases hp with
    | all _ hp => exact .all subs subs' hl fun i t t' h h' => ih i t t' h h' (hp t' (List.mem_of_getElem? h'))
  | any subs subs' hl hpub _ ih =>
    intro hp
    cases hp with
    | any _ hex hp =>
      exact .any subs subs' hl hpub fun i t t' h h' hs => ih i t t' h h' hs
        (hp t' (List.mem_of_getElem? h') ((hpub i t t' h h').2.trans hs))

/-- The relation does not depend on the order of the provers. -/
theorem plan_symm {t t' : Stmt E} (h : SamePlan t t') : SamePlan t' t := by
  induction h with
  | leaf l l' h => exact .leaf _ _ h.symm
  | all subs subs' hl _ ih => exact .all _ _ hl.symm fun i t t' h h' => ih i t' t h' h
  | any subs subs' hl hp _ ih =>
    exact .any _ _ hl.symm (fun i t t' h h' => ⟨(hp i t' t h' h).1.symm, (hp i t' t h' h).2.symm⟩)
      fun i t t' h h' hs => ih i t' t h' h ((hp i t' t h' h).2.symm.trans hs)

/-- A prover has the same plan as itself. -/
theorem plan_refl {Q : Leaf E → Prop} {t : Stmt E} (h : ProvedLeaf Q t) : SamePlan t t := by
  induction h with
  | leaf l _ => exact .leaf _ _ rfl
  | all subs _ ih =>
    refine .all _ _ rfl fun i t t' h h' => ?_
    obtain rfl := Option.some.inj (h.symm.trans h')
    exact ih t (List.mem_of_getElem? h)
  | any subs _ _ ih =>
    refine .any _ _ rfl (fun i t t' h h' => ?_) fun i t t' h h' hs => ?_
    · obtain rfl := Option.some.inj (h.symm.trans h')
      exact ⟨rfl, rfl⟩
    · obtain rfl := Option.some.inj (h.symm.trans h')
      exact ih t (List.mem_of_getElem? h) hs

/-- What the theorems need to know about a prover, with the heap `σ` and the explicit values `d`, where `σs` is the heap
that the runs are compared with. -/
structure Guarded (F : Profile E) (q M : Nat) (Z : ExtSpec E → Val E → Prop) (σs : Store) (t : Stmt E) (σ : Store)
    (d : Dict Int) : Prop where
  single : ∀ s, t ≠ .leaf (.dlrep s)
  ready : Spec.Ready F q (updateSecretValues σ d) d Z t
  blind : EveryLeaf (LeafBlind M (updateSecretValues σ d) σs) t
  hides : ProvedLeaf (LeafHides F M (updateSecretValues σ d) σs d) t
  named : Named F σ.name t
  seen : Named F σs.name t

/-- Helper: the first prover as an outsider for both. -/
theorem guarded_pairs {F : Profile E} {q M : Nat} {Z : ExtSpec E → Val E → Prop} {t₁ t₂ : Stmt E} {σ₁ σ₂ : Store}
    {d₁ d₂ : Dict Int} (hM : M ≠ 0) (hq : q ∣ M) (h₁ : Guarded F q M Z (updateSecretValues σ₁ d₁) t₁ σ₁ d₁)
    (h₂ : Guarded F q M Z (updateSecretValues σ₁ d₁) t₂ σ₂ d₂) (hp : SamePlan t₁ t₂) :
    Clause.Pair F q M Z σ₁ d₁ t₁ σ₁ d₁ t₁ ∧ Clause.Pair F q M Z σ₂ d₂ t₂ σ₁ d₁ t₁ := by
  have n₁ := h₁.seen
  have n₂ := h₂.seen
  rw [updateSecretValues_name] at n₁ n₂
  exact ⟨⟨hM, hq, h₁.single, h₁.ready, h₁.blind, h₁.hides, outsider_of_plan (plan_refl h₁.ready.holds) h₁.ready.holds,
    h₁.ready.uniq, h₁.named, n₁⟩, ⟨hM, hq, h₂.single, h₂.ready, h₂.blind, h₂.hides,
    outsider_of_plan (plan_symm hp) h₁.ready.holds, h₁.ready.uniq, h₂.named, n₂⟩⟩

/-- **C97** Let two provers have statements composed by `&` and `|` of representations and extended statements which
agree up to known values and `precommit()` and have the same marks, such that everything but the marked clauses is true
for the values each of them has, and such that the precommitments of the extended ones can be imitated.  Then, for every
challenge, interactive runs of the one have exactly the distribution of those of the other. -/
theorem C97_interactive (F : Profile E) (q M : Nat) (Z : ExtSpec E → Val E → Prop) (env : Env E) (c : Int)
    (t₁ t₂ : Stmt E) (σ₁ σ₂ : Store) (d₁ d₂ : Dict Int) (hM : M ≠ 0) (hq : q ∣ M)
    (h₁ : Guarded F q M Z (updateSecretValues σ₁ d₁) t₁ σ₁ d₁) (h₂ : Guarded F q M Z (updateSecretValues σ₁ d₁) t₂ σ₂ d₂)
    (hp : SamePlan t₁ t₂) :
    SameResults M (honestRunStmt env t₁ d₁ c) σ₁ (honestRunStmt env t₂ d₂ c) σ₂ ∧
      Succeeds M (honestRunStmt env t₁ d₁ c) σ₁ ∧ Succeeds M (honestRunStmt env t₂ d₂ c) σ₂ := by
  obtain ⟨k₁, k₂⟩ := guarded_pairs hM hq h₁ h₂ hp
  obtain ⟨⟨N₁, e₁⟩, s₁, _⟩ := Clause.runs_pretended k₁ env c
  obtain ⟨⟨N₂, e₂⟩, s₂, _⟩ := Clause.runs_pretended k₂ env c
  refine ⟨⟨max N₁ N₂, fun n hn => ?_⟩, s₁, s₂⟩
  obtain ⟨f₁, g₁⟩ := e₁ n (le_trans (le_max_left ..) hn)
  obtain ⟨f₂, g₂⟩ := e₂ n (le_trans (le_max_right ..) hn)
  refine ⟨f₁.trans f₂.symm, fun y rest => ?_⟩
  rw [g₁ y rest, g₂ ((f₁.trans f₂.symm) y) rest, Equiv.trans_apply, Equiv.apply_symm_apply]

/-- **C97** Non-interactive proofs, for every hash function: over the long enough blocks of uniform numbers below `M`,
every proof is made by the first prover exactly as often as by the second one. -/
theorem C97_same_distribution (F : Profile E) (q M : Nat) (Z : ExtSpec E → Val E → Prop) (env : Env E) (message : String)
    (t₁ t₂ : Stmt E) (σ₁ σ₂ : Store) (d₁ d₂ : Dict Int) (hM : M ≠ 0) (hq : q ∣ M)
    (h₁ : Guarded F q M Z (updateSecretValues σ₁ d₁) t₁ σ₁ d₁) (h₂ : Guarded F q M Z (updateSecretValues σ₁ d₁) t₂ σ₂ d₂)
    (hp : SamePlan t₁ t₂) :
    ∃ N, ∀ n, N ≤ n → ∀ (rest : Nat → Nat) (π : NIZK E),
      Nat.card {y : Fin n → Fin M //
        ∃ t' w, prove (LeafProver E) env t₁ d₁ message ⟨σ₁, tape y rest⟩ = .ok ((π, t'), w)} =
      Nat.card {y : Fin n → Fin M //
        ∃ t' w, prove (LeafProver E) env t₂ d₂ message ⟨σ₂, tape y rest⟩ = .ok ((π, t'), w)} := by
  obtain ⟨k₁, k₂⟩ := guarded_pairs hM hq h₁ h₂ hp
  obtain ⟨N₁, e₁⟩ := Clause.same_numbers k₁ env message
  obtain ⟨N₂, e₂⟩ := Clause.same_numbers k₂ env message
  refine ⟨max N₁ N₂, fun n hn rest π => ?_⟩
  obtain ⟨f₁, g₁⟩ := e₁ n (le_trans (le_max_left ..) hn) rest π
  obtain ⟨f₂, g₂⟩ := e₂ n (le_trans (le_max_right ..) hn) rest π
  refine Nat.card_congr ((f₁.trans f₂.symm).subtypeEquiv fun y => ?_)
  rw [g₁ y, g₂ ((f₁.trans f₂.symm) y), Equiv.trans_apply, Equiv.apply_symm_apply]

/-! ### The statements of the library -/

private theorem publicL_get {ts ts' : List (Stmt E)} (hl : ts'.length = ts.length)
    (h : ∀ (i : Nat) t t', ts[i]? = some t → ts'[i]? = some t' → publicPart t' = publicPart t) :
    publicPartL ts' = publicPartL ts := by
  induction ts generalizing ts' with
  | nil => cases ts' with
    | nil => rfl
    | cons => simp at hl
  | cons t ts ih =>
    cases ts' with
    | nil => simp at hl
    | cons t' ts' =>
      simp only [publicPartL]
      rw [h 0 t t' rfl rfl, ih (by simpa using hl) fun i a b ha hb => h (i + 1) a b ha hb]

theorem plan_public {t t' : Stmt E} (h : SamePlan t t') : publicPart t' = publicPart t := by
  induction h with
  | leaf l l' h => simp only [publicPart, h]
  | all subs subs' hl _ ih => simp only [publicPart, publicL_get hl ih]
  | any subs subs' hl hp _ _ => simp only [publicPart, publicL_get hl fun i t t' h h' => (hp i t t' h h').1]

private theorem mem_publicL {t : Stmt E} {ts : List (Stmt E)} : t ∈ publicPartL ts ↔ ∃ u ∈ ts, publicPart u = t := by
  induction ts with
  | nil => simp [publicPartL]
  | cons u ts ih => simp [publicPartL, ih, eq_comm]

private theorem occurs_public {Priv : Sec → Prop} {x : Sec} (t : Stmt E) :
    AtLeaf (leafOccurs (libProfile Priv)) (publicPart t) x ↔ AtLeaf (leafOccurs (libProfile Priv)) t x := by
  induction t using Tree.ind with
  | leaf l =>
    simp only [publicPart]
    constructor
    · rintro ⟨_, _, h⟩
      refine .leaf _ _ ?_
      cases l with
      | dlrep s => exact h
      | ext s => exact h
    · rintro ⟨_, _, h⟩
      refine .leaf _ _ ?_
      cases l with
      | dlrep s => exact h
      | ext s => exact h
  | and b subs ih =>
    simp only [publicPart]
    constructor
    · intro h
      cases h with
      | all _ _ t _ ht h =>
        obtain ⟨u, hu, rfl⟩ := mem_publicL.mp ht
        exact .all _ _ u x hu ((ih u hu).mp h)
    · intro h
      cases h with
      | all _ _ t _ ht h => exact .all _ _ (publicPart t) x (mem_publicL.mpr ⟨t, ht, rfl⟩) ((ih t ht).mpr h)
  | or b subs ih =>
    simp only [publicPart]
    constructor
    · intro h
      cases h with
      | any _ _ t _ ht h =>
        obtain ⟨u, hu, rfl⟩ := mem_publicL.mp ht
        exact .any _ _ u x hu ((ih u hu).mp h)
    · intro h
      cases h with
      | any _ _ t _ ht h => exact .any _ _ (publicPart t) x (mem_publicL.mpr ⟨t, ht, rfl⟩) ((ih t ht).mpr h)

/-- Helper. -/
theorem lib_guarded {q : Nat} (hq : q.Prime) {Priv : Sec → Prop} {t₁ t₂ : Stmt E} {σ₁ σ₂ : Store} {d₁ d₂ : Dict Int}
    (h₁ : LibProver q Priv σ₁ d₁ t₁) (h₂ : LibProver q Priv σ₂ d₂ t₂) (hp : SamePlan t₁ t₂) :
    Guarded (libProfile Priv) q q (libZ True) (updateSecretValues σ₁ d₁) t₂ σ₂ d₂ where
  single := h₂.norep
  ready := ready_lib (fun _ _ => trivial) h₂.all h₂.proved h₂.separate (by rw [updateSecretValues_name]; exact h₂.tidy)
    h₂.uniq h₂.args (told_of_uniq h₂.uniq)
  blind := every_mono h₂.hides fun _ _ h => lib_blind hq.ne_zero h
  hides := proved_mono h₂.hidesProved fun _ _ h => lib_hides hq h
  named := h₂.named
  seen := by
    rw [updateSecretValues_name]
    intro x y hx hy
    rw [← occurs_public, plan_public hp, occurs_public] at hx hy
    exact h₁.named x y hx hy

/-- **C97** For the statements of the library: two provers of the same composition, with the same clauses marked as
simulated, but with different values or different BBS+ signatures, make the same interactive runs and the same
non-interactive proofs with exactly the same probabilities. -/
theorem C97_library (q : Nat) (Priv : Sec → Prop) (env : Env E) (t₁ t₂ : Stmt E) (σ₁ σ₂ : Store) (d₁ d₂ : Dict Int)
    (hq : q.Prime) (h₁ : LibProver q Priv σ₁ d₁ t₁) (h₂ : LibProver q Priv σ₂ d₂ t₂) (hp : SamePlan t₁ t₂) :
    (∀ c, SameResults q (honestRunStmt env t₁ d₁ c) σ₁ (honestRunStmt env t₂ d₂ c) σ₂) ∧
    ∀ message, ∃ N, ∀ n, N ≤ n → ∀ (rest : Nat → Nat) (π : NIZK E),
      Nat.card {y : Fin n → Fin q //
        ∃ t' w, prove (LeafProver E) env t₁ d₁ message ⟨σ₁, tape y rest⟩ = .ok ((π, t'), w)} =
      Nat.card {y : Fin n → Fin q //
        ∃ t' w, prove (LeafProver E) env t₂ d₂ message ⟨σ₂, tape y rest⟩ = .ok ((π, t'), w)} := by
  have k₁ := lib_guarded hq h₁ h₁ (plan_refl h₁.proved)
  have k₂ := lib_guarded hq h₁ h₂ hp
  exact ⟨fun c => (C97_interactive _ q q _ env c t₁ t₂ σ₁ σ₂ d₁ d₂ hq.ne_zero dvd_rfl k₁ k₂ hp).1,
    fun m => C97_same_distribution _ q q _ env m t₁ t₂ σ₁ σ₂ d₁ d₂ hq.ne_zero dvd_rfl k₁ k₂ hp⟩

/-- The hypotheses are met by `exEither` and two provers with different values. -/
example (env : Env (ZMod 7)) (c : Int) :
    SameResults 7 (honestRunStmt env exEither [(1, 3), (7, 2), (8, 0)] c) exLibStore
      (honestRunStmt env exEither [(1, 3), (7, 6), (8, 1)] c) exLibStore :=
  (C97_library 7 exLibPriv env _ _ _ _ _ _ (by decide : Nat.Prime 7) (exEither_prover true) (exEither_prover false)
    (plan_refl (exEither_prover true).proved)).1 c

/-- So are those of the general theorems. -/
example := C97_interactive _ 7 7 _ (Ex.lengthEnv [0]) 4 _ _ _ _ _ _ (by decide) dvd_rfl
  (lib_guarded (by decide : Nat.Prime 7) (exEither_prover true) (exEither_prover true) (plan_refl (exEither_prover true).proved))
  (lib_guarded (by decide : Nat.Prime 7) (exEither_prover true) (exEither_prover false) (plan_refl (exEither_prover true).proved))
  (plan_refl (exEither_prover true).proved)

example := C97_same_distribution _ 7 7 _ (Ex.lengthEnv [0]) "m" _ _ _ _ _ _ (by decide) dvd_rfl
  (lib_guarded (by decide : Nat.Prime 7) (exEither_prover true) (exEither_prover true) (plan_refl (exEither_prover true).proved))
  (lib_guarded (by decide : Nat.Prime 7) (exEither_prover true) (exEither_prover false) (plan_refl (exEither_prover true).proved))
  (plan_refl (exEither_prover true).proved)

end Zksk.Props
