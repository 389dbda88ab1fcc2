import Verif.Lemmas.Twin
import Mathlib.Data.Fintype.BigOperators
import Mathlib.SetTheory.Cardinal.Finite
import Mathlib.Data.Fintype.Pi
import Mathlib.Algebra.Order.BigOperators.Group.Finset
import Mathlib.Algebra.BigOperators.Ring.Finset

/-! Programs that read random numbers, and how often they have a result. -/

set_option linter.unusedSectionVars false

namespace Zksk.Chance

open Spec Peer

variable {A B : Type}

/-- A program that reads numbers one after the other, until it fails or ends with a result in `Q`. -/
inductive Steps (Q : A → Store → Prop) : Run A → Prop
  | done {f : Run A} (a : A) (σ : Store) (h : Q a σ) (hf : ∀ r, f r = .ok (a, ⟨σ, r⟩)) : Steps Q f
  | fail {f : Run A} (e : Err) (hf : ∀ r, f r = .error e) : Steps Q f
  | step {f : Run A} (h : ∀ k, Steps Q (fun r => f (scons k r))) : Steps Q f

namespace Steps

variable {Q : A → Store → Prop} {σ : Store}

theorem pure {a : A} (h : Q a σ) : Steps Q (starting σ (Pure.pure a : PM A)) := .done a σ h fun _ => rfl

theorem raise {e : Err} : Steps Q (starting σ (Zksk.raise e : PM A)) := .fail e fun _ => rfl

theorem mono {Q' : A → Store → Prop} {f : Run A} (h : Steps Q f) (hQ : ∀ a τ, Q a τ → Q' a τ) : Steps Q' f := by
  induction h with
  | done a τ h hf => exact .done a τ (hQ _ _ h) hf
  | fail e hf => exact .fail e hf
  | step _ ih => exact .step ih

theorem bind {Q' : B → Store → Prop} {p : PM A} {k : A → PM B} (h : Steps Q (starting σ p))
    (hk : ∀ a τ, Q a τ → Steps Q' (starting τ (k a))) : Steps Q' (starting σ (p >>= k)) := by
  have go : ∀ {f : Run A}, Steps Q f → Steps Q' (fun r => f r >>= fun x => k x.1 x.2) := by
    intro f h
    induction h with
    | @done f a τ h hf =>
      have e : (fun r => f r >>= fun x => k x.1 x.2) = starting τ (k a) := by funext r; rw [hf r]; rfl
      rw [e]; exact hk a τ h
    | @fail f e hf => exact .fail e fun r => by rw [hf r]; rfl
    | step _ ih => exact .step ih
  exact go h

theorem get {f : Store → PM A} (h : Steps Q (starting σ (f σ))) : Steps Q (starting σ (getStore >>= f)) := h

theorem set {τ : Store} {f : Unit → PM A} (h : Steps Q (starting τ (f ()))) :
    Steps Q (starting σ (setStore τ >>= f)) := h

theorem lift {x : Except Err B} {f : B → PM A} (h : ∀ b, x = .ok b → Steps Q (starting σ (f b))) :
    Steps Q (starting σ (liftE x >>= f)) := by
  cases x with
  | ok b => exact h b rfl
  | error e => exact .fail e fun _ => rfl

theorem liftEnd {x : Except Err A} (h : ∀ a, x = .ok a → Q a σ) : Steps Q (starting σ (liftE x)) := by
  cases x with
  | ok a => exact .done a σ (h a rfl) fun _ => rfl
  | error e => exact .fail e fun _ => rfl

theorem draw {Q : Int → Store → Prop} (m : Nat) (h : ∀ k : Nat, k < m → Q (k : Int) σ) : Steps Q (starting σ (Zksk.draw m)) := by
  by_cases hm : m = 0
  · exact .fail .foreign fun r => by simp [starting, Zksk.draw, hm]
  · refine .step fun k => .done ((k % m : Nat) : Int) σ (h _ (Nat.mod_lt _ (Nat.pos_of_ne_zero hm))) fun r => ?_
    simp only [starting, Zksk.draw, if_neg hm]
    rfl

/-- Facts about the results can be added. -/
theorem also {P : A → Store → Prop} {f : Run A} (h : Steps Q f) (hP : ∀ r a w, f r = .ok (a, w) → P a w.store) :
    Steps (fun a τ => Q a τ ∧ P a τ) f := by
  induction h with
  | done a τ h hf => exact .done a τ ⟨h, hP (fun _ => 0) _ _ (hf _)⟩ hf
  | fail e hf => exact .fail e hf
  | step _ ih => exact .step fun k => ih k fun r a w h => hP _ _ _ h

/-- What is said of results holds of them. -/
theorem result {f : Run A} (h : Steps Q f) : ∀ {r a w}, f r = .ok (a, w) → Q a w.store := by
  induction h with
  | done a τ h hf =>
    intro r a' w he
    rw [hf r] at he
    simp only [Except.ok.injEq, Prod.mk.injEq] at he
    obtain ⟨rfl, rfl⟩ := he
    exact h
  | fail e hf => intro r a w he; rw [hf r] at he; cases he
  | @step f _ ih =>
    intro r a w he
    have : r = scons (r 0) fun i => r (i + 1) := by funext i; cases i <;> rfl
    rw [this] at he
    exact ih _ he

end Steps

/-- A program that reads numbers below `M`, and has a result in `P` in at most one of `q` cases. -/
inductive Seldom (M q : Nat) (P : A → Prop) : Run A → Prop
  | never {f : Run A} (h : ∀ r a w, f r = .ok (a, w) → ¬ P a) : Seldom M q P f
  | step {f : Run A} (h : ∀ k, k < M → Seldom M q P (fun r => f (scons k r))) : Seldom M q P f
  | block {f : Run A} (n : Nat) (T : (Fin n → Fin M) → Prop) (hT : q * Nat.card {y // T y} ≤ M ^ n)
      (h : ∀ y, ¬ T y → ∀ r a w, f (tape y r) = .ok (a, w) → ¬ P a) : Seldom M q P f

namespace Seldom

variable {M q : Nat} {P : A → Prop} {σ : Store}

/-- After any other program. -/
theorem after {Q : B → Store → Prop} {p : PM B} {k : B → PM A} (h : Steps Q (starting σ p))
    (hk : ∀ b τ, Q b τ → Seldom M q P (starting τ (k b))) : Seldom M q P (starting σ (p >>= k)) := by
  have go : ∀ {f : Run B}, Steps Q f → Seldom M q P (fun r => f r >>= fun x => k x.1 x.2) := by
    intro f h
    induction h with
    | @done f a τ h hf =>
      have e : (fun r => f r >>= fun x => k x.1 x.2) = starting τ (k a) := by funext r; rw [hf r]; rfl
      rw [e]; exact hk a τ h
    | @fail f e hf => exact .never fun r a w h => by rw [hf r] at h; cases h
    | step _ ih => exact .step fun k _ => ih k
  exact go h

/-- Before any other program whose results in `P'` come from results in `P`. -/
theorem before {τ : Store} {P' : B → Prop} {p : PM A} {k : A → PM B} (h : Seldom M q P (starting σ p))
    (hs : Steps (fun _ τ' => τ' = τ) (starting σ p))
    (hk : ∀ a b w w', w.store = τ → k a w = .ok (b, w') → P' b → P a) : Seldom M q P' (starting σ (p >>= k)) := by
  have go : ∀ {f : Run A}, Seldom M q P f → (∀ r a w, f r = .ok (a, w) → w.store = τ) →
      Seldom M q P' (fun r => f r >>= fun x => k x.1 x.2) := by
    intro f h hs
    induction h with
    | @never f h =>
      refine .never fun r b w hb hp => ?_
      obtain ⟨⟨a, w1⟩, h1, h2⟩ := bind_ok_iff.mp hb
      exact h r a w1 h1 (hk _ _ _ _ (hs _ _ _ h1) h2 hp)
    | step _ ih => exact .step fun k hk => ih k hk fun r a w h => hs _ _ _ h
    | @block f n T hT h =>
      refine .block n T hT fun y hy r b w hb hp => ?_
      obtain ⟨⟨a, w1⟩, h1, h2⟩ := bind_ok_iff.mp hb
      exact h y hy r a w1 h1 (hk _ _ _ _ (hs _ _ _ h1) h2 hp)
  exact go h fun r a w h => hs.result h

theorem get {f : Store → PM A} (h : Seldom M q P (starting σ (f σ))) : Seldom M q P (starting σ (getStore >>= f)) := h

theorem lift {x : Except Err B} {f : B → PM A} (h : ∀ b, x = .ok b → Seldom M q P (starting σ (f b))) :
    Seldom M q P (starting σ (liftE x >>= f)) := by
  cases x with
  | ok b => exact h b rfl
  | error e => exact .never fun _ _ _ h => by cases h

theorem mono {P' : A → Prop} {f : Run A} (h : Seldom M q P f) (hP : ∀ r a w, f r = .ok (a, w) → P' a → P a) :
    Seldom M q P' f := by
  induction h with
  | never h => exact .never fun r a w h1 h2 => h r a w h1 (hP _ _ _ h1 h2)
  | step _ ih => exact .step fun k hk => ih k hk fun r a w h => hP _ a w h
  | block n T hT h => exact .block n T hT fun y hy r a w h1 h2 => h y hy r a w h1 (hP _ _ _ h1 h2)

end Seldom

theorem tape_tail {M n : Nat} (y : Fin (n + 1) → Fin M) (r : Nat → Nat) :
    tape y r = scons (y 0) (tape (Fin.tail y) r) := by
  rw [← tape_cons, Fin.cons_self_tail]

theorem tape_split {M n m : Nat} (y : Fin n → Fin M) (z : Fin m → Fin M) (r : Nat → Nat) :
    tape (Fin.append y z) r = tape y (tape z r) := by
  funext i
  simp only [tape]
  by_cases h : i < n
  · rw [dif_pos (by omega), dif_pos h]
    exact congrArg Fin.val (Fin.append_left y z ⟨i, h⟩)
  · rw [dif_neg h]
    by_cases h2 : i < n + m
    · rw [dif_pos h2, dif_pos (by omega)]
      have : (⟨i, h2⟩ : Fin (n + m)) = Fin.natAdd n ⟨i - n, by omega⟩ := by
        apply Fin.ext; simp; omega
      rw [this, Fin.append_right]
    · rw [dif_neg h2, dif_neg (by omega)]
      congr 1; omega

/-- The number of blocks with a result in `P`. -/
theorem Seldom.count {M q : Nat} {P : A → Prop} {f : Run A} (h : Seldom M q P f) :
    ∃ N, ∀ n, N ≤ n → ∀ rest : Nat → Nat,
      q * Nat.card {y : Fin n → Fin M // ∃ a w, f (tape y rest) = .ok (a, w) ∧ P a} ≤ M ^ n := by
  induction h with
  | never h =>
    refine ⟨0, fun n _ rest => ?_⟩
    have : IsEmpty {y : Fin n → Fin M // ∃ a w, ‹Run A› (tape y rest) = .ok (a, w) ∧ P a} :=
      ⟨fun ⟨y, a, w, h1, h2⟩ => h _ a w h1 h2⟩
    rw [Nat.card_of_isEmpty]
    simp
  | @step f _ ih =>
    choose N hN using ih
    refine ⟨(Finset.univ.sup fun k : Fin M => N k k.2) + 1, fun n hn rest => ?_⟩
    obtain ⟨n, rfl⟩ : ∃ j, n = j + 1 := ⟨n - 1, by omega⟩
    let S : Fin M → Type := fun k => {y : Fin n → Fin M // ∃ a w, f (scons k (tape y rest)) = .ok (a, w) ∧ P a}
    have e : {y : Fin (n + 1) → Fin M // ∃ a w, f (tape y rest) = .ok (a, w) ∧ P a} ≃ (k : Fin M) × S k :=
      { toFun := fun y => ⟨y.1 0, Fin.tail y.1, by
          obtain ⟨a, w, h1, h2⟩ := y.2
          exact ⟨a, w, by rw [← tape_tail]; exact h1, h2⟩⟩
        invFun := fun x => ⟨Fin.cons x.1 x.2.1, by
          obtain ⟨a, w, h1, h2⟩ := x.2.2
          exact ⟨a, w, by rw [tape_cons]; exact h1, h2⟩⟩
        left_inv := fun y => by apply Subtype.ext; exact Fin.cons_self_tail _
        right_inv := fun x => by
          obtain ⟨k, y, hy⟩ := x
          rfl }
    rw [Nat.card_congr e, Nat.card_sigma, Finset.mul_sum, pow_succ]
    calc ∑ k : Fin M, q * Nat.card (S k) ≤ ∑ _k : Fin M, M ^ n :=
          Finset.sum_le_sum fun k _ => hN k k.2 n (by
            have := Finset.le_sup (f := fun k : Fin M => N k k.2) (Finset.mem_univ k)
            omega) rest
      _ = M ^ n * M := by simp [Finset.sum_const, Nat.mul_comm]
  | @block f n T hT h =>
    refine ⟨n, fun m hm rest => ?_⟩
    obtain ⟨j, rfl⟩ : ∃ j, m = n + j := ⟨m - n, by omega⟩
    let g : {y : Fin (n + j) → Fin M // ∃ a w, f (tape y rest) = .ok (a, w) ∧ P a} →
        {y : Fin n → Fin M // T y} × (Fin j → Fin M) := fun y =>
      (⟨fun i => y.1 (Fin.castAdd j i), by
        obtain ⟨a, w, h1, h2⟩ := y.2
        by_contra hT'
        refine h _ hT' (tape (fun i => y.1 (Fin.natAdd n i)) rest) a w ?_ h2
        rw [← tape_split, Fin.append_castAdd_natAdd]
        exact h1⟩, fun i => y.1 (Fin.natAdd n i))
    have hg : Function.Injective g := by
      intro y y' he
      simp only [g, Prod.mk.injEq, Subtype.mk.injEq] at he
      apply Subtype.ext
      rw [← Fin.append_castAdd_natAdd (f := y.1), ← Fin.append_castAdd_natAdd (f := y'.1), he.1, he.2]
    have := Nat.card_le_card_of_injective g hg
    rw [Nat.card_prod] at this
    have hj : Nat.card (Fin j → Fin M) = M ^ j := by simp
    rw [hj] at this
    calc q * Nat.card _ ≤ q * (Nat.card {y // T y} * M ^ j) := Nat.mul_le_mul_left _ this
      _ = (q * Nat.card {y // T y}) * M ^ j := by rw [Nat.mul_assoc]
      _ ≤ M ^ n * M ^ j := Nat.mul_le_mul_right _ hT
      _ = M ^ (n + j) := (pow_add M n j).symm

end Zksk.Chance
