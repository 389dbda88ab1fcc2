import Verif.SpecRun
import Verif.Lemmas.Tape
import Mathlib.Logic.Equiv.Prod
import Mathlib.Logic.Equiv.Fin.Basic
import Mathlib.Data.Finset.Lattice.Fold
import Mathlib.Data.Fintype.Basic
import Mathlib.Algebra.Group.Units.Equiv
import Mathlib.Algebra.Group.Fin.Basic

/-! Pairs of programs whose random numbers are matched one to one. -/

set_option linter.unusedSectionVars false

namespace Zksk.Peer

open Spec

/-- A program started with a fixed heap, as a function of the random stream. -/
abbrev Run (A : Type) := (Nat → Nat) → Except Err (A × World)

/-- Start a program with heap `σ`. -/
def starting {A : Type} (σ : Store) (p : PM A) : Run A := fun r => p ⟨σ, r⟩

/-- The stream that starts with `k`. -/
def scons (k : Nat) (r : Nat → Nat) : Nat → Nat
  | 0 => k
  | n + 1 => r n

/-- Two programs read one random number after the other, the second one being shifted by a number that
depends on what was read before, until both end with related results and without reading more. -/
inductive Twin (M : Nat) {A B : Type} (Q : A → Store → B → Store → Prop) : Run A → Run B → Prop
  | ret {f : Run A} {g : Run B} (a : A) (σ : Store) (b : B) (σ' : Store) (h : Q a σ b σ')
      (hf : ∀ r, f r = .ok (a, ⟨σ, r⟩)) (hg : ∀ r, g r = .ok (b, ⟨σ', r⟩)) : Twin M Q f g
  | step {f : Run A} {g : Run B} (s : Nat)
      (h : ∀ k, k < M → Twin M Q (fun r => f (scons k r)) (fun r => g (scons ((k + s) % M) r))) :
      Twin M Q f g

namespace Twin

variable {M : Nat} {A B C D : Type} {Q : A → Store → B → Store → Prop} {σ σ' : Store}

theorem pure {a : A} {b : B} (h : Q a σ b σ') :
    Twin M Q (starting σ (Pure.pure a : PM A)) (starting σ' (Pure.pure b : PM B)) :=
  .ret a σ b σ' h (fun _ => rfl) fun _ => rfl

theorem mono {Q' : A → Store → B → Store → Prop} {f : Run A} {g : Run B} (h : Twin M Q f g)
    (hQ : ∀ a τ b τ', Q a τ b τ' → Q' a τ b τ') : Twin M Q' f g := by
  induction h with
  | ret a τ b τ' h hf hg => exact .ret a τ b τ' (hQ _ _ _ _ h) hf hg
  | step s _ ih => exact .step s ih

/-- Facts about the results of the first program can be added. -/
theorem left {P : A → Store → Prop} {f : Run A} {g : Run B} (h : Twin M Q f g)
    (hP : ∀ r a w, f r = .ok (a, w) → P a w.store) :
    Twin M (fun a τ b τ' => Q a τ b τ' ∧ P a τ) f g := by
  induction h with
  | ret a τ b τ' h hf hg => exact .ret a τ b τ' ⟨h, hP (fun _ => 0) _ _ (hf _)⟩ hf hg
  | step s _ ih => exact .step s fun k hk => ih k hk fun r a w h => hP _ _ _ h

/-- Facts about the results of the second program can be added. -/
theorem right {P : B → Store → Prop} {f : Run A} {g : Run B} (h : Twin M Q f g)
    (hP : ∀ r a w, g r = .ok (a, w) → P a w.store) :
    Twin M (fun a τ b τ' => Q a τ b τ' ∧ P b τ') f g := by
  induction h with
  | ret a τ b τ' h hf hg => exact .ret a τ b τ' ⟨h, hP (fun _ => 0) _ _ (hg _)⟩ hf hg
  | step s _ ih => exact .step s fun k hk => ih k hk fun r a w h => hP _ _ _ h

theorem bindRun {Q' : C → Store → D → Store → Prop} {f : Run A} {g : Run B} {k : A → PM C} {k' : B → PM D}
    (h : Twin M Q f g)
    (hk : ∀ a τ b τ', Q a τ b τ' → Twin M Q' (starting τ (k a)) (starting τ' (k' b))) :
    Twin M Q' (fun r => f r >>= fun x => k x.1 x.2) (fun r => g r >>= fun x => k' x.1 x.2) := by
  induction h with
  | @ret f g a τ b τ' h hf hg =>
    have := hk a τ b τ' h
    have e1 : (fun r => f r >>= fun x => k x.1 x.2) = starting τ (k a) := by
      funext r; rw [hf r]; rfl
    have e2 : (fun r => g r >>= fun x => k' x.1 x.2) = starting τ' (k' b) := by
      funext r; rw [hg r]; rfl
    rw [e1, e2]; exact this
  | step s _ ih => exact .step s ih

theorem bind {Q' : C → Store → D → Store → Prop} {p : PM A} {p' : PM B} {k : A → PM C} {k' : B → PM D}
    (h : Twin M Q (starting σ p) (starting σ' p'))
    (hk : ∀ a τ b τ', Q a τ b τ' → Twin M Q' (starting τ (k a)) (starting τ' (k' b))) :
    Twin M Q' (starting σ (p >>= k)) (starting σ' (p' >>= k')) := bindRun h hk

theorem get {f : Store → PM A} {g : Store → PM B} (h : Twin M Q (starting σ (f σ)) (starting σ' (g σ'))) :
    Twin M Q (starting σ (getStore >>= f)) (starting σ' (getStore >>= g)) := h

theorem lift {x : Except Err C} {y : Except Err D} {c : C} {d : D} (hx : x = .ok c) (hy : y = .ok d)
    {f : C → PM A} {g : D → PM B} (h : Twin M Q (starting σ (f c)) (starting σ' (g d))) :
    Twin M Q (starting σ (liftE x >>= f)) (starting σ' (liftE y >>= g)) := by
  subst hx; subst hy; exact h

/-- Programs that end with certainty. -/
theorem ends {p : PM A} {p' : PM B} {a : A} {b : B} {τ τ' : Store} (h : Q a τ b τ')
    (hp : ∀ r, p ⟨σ, r⟩ = .ok (a, ⟨τ, r⟩)) (hp' : ∀ r, p' ⟨σ', r⟩ = .ok (b, ⟨τ', r⟩)) :
    Twin M Q (starting σ p) (starting σ' p') := .ret a τ b τ' h hp hp'

theorem draw_scons {m : Nat} (hm : m ≠ 0) (τ : Store) (k : Nat) (r : Nat → Nat) :
    draw m ⟨τ, scons k r⟩ = .ok (((k % m : Nat) : Int), ⟨τ, r⟩) := by
  unfold draw
  rw [if_neg hm]
  rfl

/-- The same number is drawn. -/
theorem drawSame {m : Nat} (hm : m ≠ 0) :
    Twin M (fun a τ b τ' => (a = b ∧ τ = σ ∧ τ' = σ') ∧ 0 ≤ a ∧ a < (m : Int))
      (starting σ (draw m)) (starting σ' (draw m)) := by
  refine .step 0 fun k hk => .ret ((k % m : Nat) : Int) σ ((k % m : Nat) : Int) σ' ?_
    (fun r => draw_scons hm σ k r) fun r => ?_
  · refine ⟨⟨rfl, rfl, rfl⟩, Int.natCast_nonneg _, ?_⟩
    exact_mod_cast Nat.mod_lt _ (Nat.pos_of_ne_zero hm)
  · rw [Nat.add_zero, Nat.mod_eq_of_lt hk]
    exact draw_scons hm σ' k r

/-- A number shifted by `s` is drawn. -/
theorem drawShift {m : Nat} (hm : m ≠ 0) (hM : M ≠ 0) (hd : m ∣ M) (s : Int) :
    Twin M (fun a τ b τ' => b = (a + s) % (m : Int) ∧ τ = σ ∧ τ' = σ')
      (starting σ (draw m)) (starting σ' (draw m)) := by
  refine .step (s % (M : Int)).toNat fun k hk => .ret ((k % m : Nat) : Int) σ
    (((k + (s % (M : Int)).toNat) % M % m : Nat) : Int) σ' ⟨?_, rfl, rfl⟩
    (fun r => draw_scons hm σ k r) fun r => draw_scons hm σ' _ r
  rw [Nat.mod_mod_of_dvd _ hd]
  have h0 : 0 ≤ s % (M : Int) := Int.emod_nonneg _ (by exact_mod_cast hM)
  push_cast
  rw [Int.toNat_of_nonneg h0, Int.emod_add_emod]
  have : s % (M : Int) % (m : Int) = s % (m : Int) := Int.emod_emod_of_dvd _ (by exact_mod_cast hd)
  rw [Int.add_emod, this, ← Int.add_emod]

end Twin

/-! ### From matched programs to permutations of blocks -/

/-- A program that reads at most `n` numbers. -/
inductive Reads (M : Nat) {A : Type} : Nat → Run A → Prop
  | stop {n : Nat} {f : Run A} (a : A) (σ : Store) (hf : ∀ r, f r = .ok (a, ⟨σ, r⟩)) : Reads M n f
  | step {n : Nat} {f : Run A} (h : ∀ k, k < M → Reads M n (fun r => f (scons k r))) : Reads M (n + 1) f

theorem Reads.mono {M n : Nat} {A : Type} {f : Run A} (h : Reads M n f) : ∀ {m}, n ≤ m → Reads M m f := by
  induction h with
  | stop a σ hf => intro m _; exact .stop a σ hf
  | step _ ih =>
    intro m hm
    obtain ⟨m, rfl⟩ : ∃ j, m = j + 1 := ⟨m - 1, by omega⟩
    exact .step fun k hk => ih k hk (by omega)

theorem Twin.reads {M : Nat} {A B : Type} {Q : A → Store → B → Store → Prop} {f : Run A} {g : Run B}
    (h : Twin M Q f g) : ∃ n, Reads M n f := by
  induction h with
  | ret a τ b τ' h hf hg => exact ⟨0, .stop a τ hf⟩
  | step s _ ih =>
    choose n hn using ih
    refine ⟨(Finset.univ.sup fun k : Fin M => n k k.2) + 1, .step fun k hk => (hn k hk).mono ?_⟩
    exact Finset.le_sup (f := fun k : Fin M => n k k.2) (Finset.mem_univ ⟨k, hk⟩)

/-- What is left of the stream. -/
def leftover {A : Type} (x : Except Err (A × World)) : Option (Nat → Nat) :=
  match x with
  | .ok (_, w) => some w.rng
  | .error _ => none

/-- Every stream is left over for some stream. -/
theorem Twin.leftover_tail {M : Nat} {A B : Type} {Q : A → Store → B → Store → Prop} {f : Run A} {g : Run B}
    (hM : M ≠ 0) (h : Twin M Q f g) (r : Nat → Nat) :
    ∃ j r0, leftover (f r0) = some r ∧ ∀ i, r0 (i + j) = r i := by
  induction h with
  | ret a τ b τ' h hf hg => exact ⟨0, r, by rw [hf]; rfl, fun _ => rfl⟩
  | step s _ ih =>
    obtain ⟨j, r0, h1, h2⟩ := ih 0 (Nat.pos_of_ne_zero hM)
    exact ⟨j + 1, scons 0 r0, h1, fun i => h2 i⟩

theorem tape_cons {M j : Nat} (k : Fin M) (y : Fin j → Fin M) (r : Nat → Nat) :
    tape (Fin.cons k y : Fin (j + 1) → Fin M) r = scons k (tape y r) := by
  funext i
  cases i with
  | zero => simp [tape, scons]
  | succ i =>
    simp only [tape, scons, Nat.add_lt_add_iff_right, Nat.add_sub_add_right]
    split
    · rename_i hi
      have : (⟨i + 1, by omega⟩ : Fin (j + 1)) = Fin.succ ⟨i, hi⟩ := rfl
      rw [this, Fin.cons_succ]
    · rfl

/-- Matched programs have the same results on matched blocks.  `f0` is a program that reads the same numbers
as the first one; it tells how long the blocks are. -/
theorem Twin.perm_of {M : Nat} {A B C : Type} {Q : A → Store → B → Store → Prop} {f : Run A} {g : Run B}
    (hM : M ≠ 0) (h : Twin M Q f g) : ∀ {n : Nat} {f0 : Run C}, Reads M n f0 →
    (∀ r, leftover (f0 r) = leftover (f r)) →
    ∃ e : Equiv.Perm (Fin n → Fin M), ∀ y, ∃ a τ b τ', Q a τ b τ' ∧ ∀ rest, ∃ r',
      f (tape y rest) = .ok (a, ⟨τ, r'⟩) ∧ g (tape (e y) rest) = .ok (b, ⟨τ', r'⟩) := by
  induction h with
  | ret a τ b τ' h hf hg =>
    intro n f0 _ _
    exact ⟨Equiv.refl _, fun y => ⟨a, τ, b, τ', h, fun rest => ⟨_, hf _, hg _⟩⟩⟩
  | @step f g s ht ih =>
    intro n f0 h0 hl
    cases h0 with
    | stop a σ hf =>
      exfalso
      obtain ⟨j, r0, h1, h2⟩ := (ht 0 (Nat.pos_of_ne_zero hM)).leftover_tail hM (fun i => i)
      have h3 := hl (scons 0 r0)
      rw [hf] at h3
      rw [h1] at h3
      simp only [leftover, Option.some.injEq] at h3
      have h4 := congrFun h3 (0 + j + 1)
      have h5 : scons 0 r0 (0 + j + 1) = r0 (0 + j) := rfl
      rw [h5, h2] at h4
      omega
    | @step m _ h0 =>
      have : NeZero M := ⟨hM⟩
      choose e he using fun (k : Fin M) => ih k k.2 (h0 k k.2) (fun r => hl (scons k r))
      refine ⟨(Fin.consEquiv fun _ => Fin M).symm.trans
        ((Equiv.prodShear (Equiv.addRight (Fin.ofNat M s)) e).trans (Fin.consEquiv fun _ => Fin M)), fun y => ?_⟩
      obtain ⟨a, τ, b, τ', hq, hr⟩ := he (y 0) (Fin.tail y)
      refine ⟨a, τ, b, τ', hq, fun rest => ?_⟩
      obtain ⟨r', h1, h2⟩ := hr rest
      refine ⟨r', ?_, ?_⟩
      · have : tape y rest = scons (y 0) (tape (Fin.tail y) rest) := by
          rw [← tape_cons, Fin.cons_self_tail]
        rw [this]; exact h1
      · have : tape (((Fin.consEquiv fun _ => Fin M).symm.trans
          ((Equiv.prodShear (Equiv.addRight (Fin.ofNat M s)) e).trans (Fin.consEquiv fun _ => Fin M))) y) rest =
            scons ((y 0 + s) % M) (tape (e (y 0) (Fin.tail y)) rest) := by
          have e1 : ((Fin.consEquiv fun _ => Fin M).symm.trans
            ((Equiv.prodShear (Equiv.addRight (Fin.ofNat M s)) e).trans (Fin.consEquiv fun _ => Fin M))) y =
              (Fin.cons (y 0 + Fin.ofNat M s) (e (y 0) (Fin.tail y)) : Fin (m + 1) → Fin M) := rfl
          rw [e1, tape_cons]
          congr 1
          simp [Fin.val_add, Fin.ofNat]
        rw [this]; exact h2

end Zksk.Peer
