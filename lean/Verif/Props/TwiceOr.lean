import Verif.Lemmas.Given
import Verif.Lemmas.Simulate
import Verif.Props.Choice

/-! # C90: disjunctions used twice in a conjunction -/

set_option linter.unusedSectionVars false

namespace Zksk.Props

open Spec

variable {E : Type} [AddCommGroup E] [DecidableEq E]

private theorem solidL_mem {ts : List (Core E)} : SolidL ts ↔ ∀ t ∈ ts, Solid t := by
  induction ts with
  | nil => simp [SolidL]
  | cons a ts ih => simp [SolidL, ih]

/-- A statement that is not made by conjunction alone has a disjunction below conjunctions. -/
private theorem orAt_exists : ∀ (t : Core E), Solid t → ¬ OrFree t →
    ∃ pre u post x, OrAt t pre u post ∧ x ∈ secrets u := by
  intro t
  induction t using Tree.ind with
  | leaf s => intro _ h; exact (h (.rep s)).elim
  | or b us _ =>
    intro hs _
    obtain ⟨x, hx⟩ := List.exists_mem_of_ne_nil _ (solid_secrets _ hs)
    exact ⟨_, _, _, x, .here b us, hx⟩
  | and b us ih =>
    intro hs h
    have : ∃ u ∈ us, ¬ OrFree u := by
      by_contra hc
      push Not at hc
      exact h (.all b us hc)
    obtain ⟨u, hu, hn⟩ := this
    obtain ⟨pre, v, post, x, h1, h2⟩ := ih u hu (solidL_mem.mp hs.2 u hu) hn
    obtain ⟨ls, rs, rfl⟩ := List.append_of_mem hu
    exact ⟨_, _, _, x, .down b ls u rs pre post v h1, h2⟩

/-- The parts of `t0 & t0`. -/
private theorem twice_parts (t0 t : Core E) (hand : opAnd t0 t0 = .ok t) (hs : Solid t0) (hor : ¬ OrFree t0) :
    ∃ us, t = .and false us ∧ us ≠ [] ∧ SolidL us ∧ (∀ x b, (x, b) ∈ termsL us → (x, b) ∈ terms t0) ∧
      (∀ σ : Store, ¬ OrsPrivate σ (.and false us)) ∧
      ∀ σ d X, Satisfied σ d X t0 → ∀ u ∈ us, Satisfied σ d X u := by
  cases t0 with
  | leaf s => exact (hor (.rep s)).elim
  | or b us =>
    have : t = .and false [.or b us, .or b us] := (Except.ok.inj hand).symm
    refine ⟨_, this, by simp, ⟨hs, hs, trivial⟩, fun x c h => by simpa [termsL] using h, fun σ hp => ?_, ?_⟩
    · obtain ⟨x, hx⟩ := List.exists_mem_of_ne_nil _ (solid_secrets _ hs)
      exact hp _ _ _ (.down false [] _ [.or b us] [] [] _ (.here b us)) x hx x
        (by simpa [secretsL] using hx) rfl
    · intro σ d X h u hu
      simp only [List.mem_cons, List.not_mem_nil, or_false, or_self] at hu
      rw [hu]; exact h
  | and b us =>
    have hlen : 2 ≤ (us ++ us).length := by
      have := List.length_pos_iff.mpr hs.1
      simp only [List.length_append]; omega
    have : t = .and false (us ++ us) := by
      have h : mkAnd (us ++ us) = .ok t := hand
      unfold mkAnd at h
      rw [if_neg (by omega)] at h
      exact (Except.ok.inj h).symm
    refine ⟨_, this, by simp [hs.1], solidL_mem.mpr fun u hu => solidL_mem.mp hs.2 u (by simpa using hu), ?_, ?_, ?_⟩
    · intro x c h
      simp only [terms]
      rw [mem_termsL] at h ⊢
      obtain ⟨u, hu, hx⟩ := h
      exact ⟨u, by simpa using hu, hx⟩
    · intro σ hp
      obtain ⟨pre, v, post, x, h1, h2⟩ := orAt_exists _ hs hor
      cases h1 with
      | down _ ls u rs pre post _ h1 =>
        have h3 : OrAt (.and false (ls ++ u :: (rs ++ (ls ++ u :: rs)))) (secretsL ls ++ pre) v
          (post ++ secretsL (rs ++ (ls ++ u :: rs))) := .down false ls u _ pre post v h1
        have e : ls ++ u :: (rs ++ (ls ++ u :: rs)) = (ls ++ u :: rs) ++ (ls ++ u :: rs) := by simp
        rw [e] at h3
        refine hp _ _ _ h3 x h2 x ?_ rfl
        refine List.mem_append_right _ (List.mem_append_right _ (mem_secretsL.mpr ⟨u, by simp, ?_⟩))
        rw [orAt_secrets h1]
        simp [h2]
    · intro σ d X h u hu
      cases h with
      | all _ h => exact h u (by simpa using hu)

/-- **C90** is violated by disjunctions: if `t0` is not made of representations by conjunction alone, then the prover
never returns a proof of `t0 & t0`. -/
theorem C90_disjunction_refused (env : Env E) (t0 t : Core E) (hand : opAnd t0 t0 = .ok t) (hs : Solid t0)
    (hor : ¬ OrFree t0) (d : Dict Int) (w w' : World) (msg : String) (nizk : NIZK E) (t' : Core E) :
    prove (DLRepProver E) env t d msg w ≠ .ok ((nizk, t'), w') := by
  intro h
  obtain ⟨us, rfl, hne, hsol, _, hp, _⟩ := twice_parts t0 t hand hs hor
  have hsol' : Solid (.and false us) := ⟨hne, hsol⟩
  exact hp _ ((C29_prover_checks_partial env _ t' d msg nizk w w' (wf_of_good (good_of_solid _ hsol')) h).1 _ _ rfl).2

/-- **C90** With values that make `t0` true, and secrets used with groups of one order each, the reason is
`InvalidSecretsError`. -/
theorem C90_disjunction_error (env : Env E) (t0 t : Core E) (hand : opAnd t0 t0 = .ok t) (hs : Solid t0)
    (hor : ¬ OrFree t0) (ht : Torsion t0) (d : Dict Int) (w : World) (msg : String) (X : Key → Int)
    (hd : d.Uniq (updateSecretValues w.store d)) (ho : SameOrders (updateSecretValues w.store d) t0)
    (hX : Satisfied (updateSecretValues w.store d) d X t0) :
    prove (DLRepProver E) env t d msg w = .error .invalidSecrets := by
  obtain ⟨us, rfl, hne, hsol, hterms, hp, hsat⟩ := twice_parts t0 t hand hs hor
  have hheap : heapFor w.store d (.and false us : Core E) = updateSecretValues w.store d :=
    heapFor_eq _ _ (by simp)
  refine (C27_prove_refuses env us d w msg X ⟨hne, hsol⟩ (fun x b h => ht x b (hterms x b h)) ?_ ?_).2 ?_ ?_
  · rw [hheap]; exact hd
  · rw [hheap]; exact .all _ (hsat _ _ _ hX)
  · rw [hheap]
    exact fun x b y c h1 h2 => ho x b y c (hterms x b h1) (hterms y c h2)
  · exact hp _

/-- `x2 * 3 == 5` or `x0 * 3 == 6`, modulo 7. -/
def exThisOr : Core (ZMod 7) := .or false [.leaf Ex.rep3, .leaf Ex.rep2]

private theorem exThisOr_solid : Solid exThisOr :=
  ⟨by simp, ⟨rfl, by simp [Ex.rep3], by simp [Ex.rep3, Ex.P], by simp [Ex.rep3, Ex.P, Ex.G]⟩,
    ⟨rfl, by simp [Ex.rep2], by simp [Ex.rep2, Ex.P], by simp [Ex.rep2, Ex.P, Ex.G]⟩, trivial⟩

private theorem exThisOr_terms {x : Sec} {b : Pt (ZMod 7)} (h : (x, b) ∈ terms exThisOr) : b = Ex.P 3 := by
  simp only [exThisOr, terms, termsL, Ex.rep3, Ex.rep2, List.zip_cons_cons, List.zip_nil_right, List.append_nil,
    List.singleton_append, List.mem_cons, List.not_mem_nil, or_false, Prod.mk.injEq] at h
  rcases h with ⟨_, h⟩ | ⟨_, h⟩ <;> exact h

/-- Both clauses are true with `x0 = 2` and `x2 = 4`. -/
private theorem exThisOr_true : Satisfied (updateSecretValues Ex.σ [(0, 2), (2, 4)]) [(0, 2), (2, 4)]
    (fun κ => if κ.1 = "x0" then 2 else 4) exThisOr := by
  refine .any _ ⟨_, List.mem_cons_self, rfl⟩ fun t ht _ => ?_
  simp only [List.mem_cons, List.not_mem_nil, or_false] at ht
  rcases ht with rfl | rfl
  · refine .rep _ (fun x hx => ?_) (.rep _ _ (by simp [Ex.rep3, Ex.P]) (by decide))
    simp only [Ex.rep3, List.mem_singleton] at hx
    subst hx; decide
  · refine .rep _ (fun x hx => ?_) (.rep _ _ (by simp [Ex.rep2, Ex.P]) (by decide))
    simp only [Ex.rep2, List.mem_singleton] at hx
    subst hx; decide

/-- The prover of `x2 * 3 == 5 | x0 * 3 == 6` knows both secrets, and still cannot prove the statement twice. -/
example (env : Env (ZMod 7)) (rng : Nat → Nat) (msg : String) :
    ∃ t, opAnd exThisOr exThisOr = .ok t ∧
      prove (DLRepProver (ZMod 7)) env t [(0, 2), (2, 4)] msg ⟨Ex.σ, rng⟩ = .error .invalidSecrets ∧
      ∀ d w w' nizk t', prove (DLRepProver (ZMod 7)) env t d msg w ≠ .ok ((nizk, t'), w') := by
  have hor : ¬ OrFree exThisOr := by intro h; cases h
  refine ⟨_, rfl, C90_disjunction_error env exThisOr _ rfl exThisOr_solid hor ?_ _ ⟨Ex.σ, rng⟩ msg _ ?_ ?_ exThisOr_true,
    fun d w w' nizk t' => C90_disjunction_refused env exThisOr _ rfl exThisOr_solid hor d w w' msg nizk t'⟩
  · intro x b h
    rw [exThisOr_terms h]; decide
  · simp only [Dict.Uniq]; decide
  · intro x b y c h1 h2 _
    rw [exThisOr_terms h1, exThisOr_terms h2]

end Zksk.Props
