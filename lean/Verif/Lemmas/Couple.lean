import Verif.Lemmas.Twin
import Verif.Lemmas.StmtHvzk

/-! Pairs of programs whose random numbers are matched block by block. -/

set_option linter.unusedSectionVars false

namespace Zksk.Peer

open Spec

/-- Two programs read blocks of random numbers, matched one to one in dependence of what was read before, until both
end with related results and without reading more. -/
inductive Couple (M : Nat) {A B : Type} (Q : A → Store → B → Store → Prop) : Run A → Run B → Prop
  | ret {f : Run A} {g : Run B} (a : A) (σ : Store) (b : B) (σ' : Store) (h : Q a σ b σ')
      (hf : ∀ r, f r = .ok (a, ⟨σ, r⟩)) (hg : ∀ r, g r = .ok (b, ⟨σ', r⟩)) : Couple M Q f g
  | block {f : Run A} {g : Run B} (n : Nat) (e : Equiv.Perm (Fin n → Fin M))
      (h : ∀ y, Couple M Q (fun r => f (tape y r)) (fun r => g (tape (e y) r))) : Couple M Q f g

theorem tape_one {M : Nat} (y : Fin 1 → Fin M) (r : Nat → Nat) : tape y r = scons (y 0) r := by
  have : y = (Fin.cons (y 0) Fin.elim0 : Fin 1 → Fin M) := by
    funext i
    rw [Subsingleton.elim i 0]
    rfl
  rw [this, tape_cons, tape_zero]
  rfl

/-- Numbers matched one after the other. -/
theorem Twin.couple {M : Nat} (hM : M ≠ 0) {A B : Type} {Q : A → Store → B → Store → Prop} {f : Run A} {g : Run B}
    (h : Peer.Twin M Q f g) : Couple M Q f g := by
  have : NeZero M := ⟨hM⟩
  induction h with
  | ret a σ b σ' h hf hg => exact .ret a σ b σ' h hf hg
  | step s _ ih =>
    refine .block 1 (Equiv.arrowCongr (Equiv.refl _) (Equiv.addRight (Fin.ofNat M s))) fun y => ?_
    have h1 : (fun r => ‹Run A› (tape y r)) = fun r => ‹Run A› (scons (y 0) r) := by
      funext r; rw [tape_one]
    rename_i f g _
    have h2 : (fun r => g (tape (Equiv.arrowCongr (Equiv.refl _) (Equiv.addRight (Fin.ofNat M s)) y) r)) =
        fun r => g (scons ((y 0 + s) % M) r) := by
      funext r
      rw [tape_one]
      congr 2
      simp [Equiv.arrowCongr, Fin.val_add, Fin.ofNat]
    rw [h1, h2]
    exact ih _ (y 0).2

namespace Couple

variable {M : Nat} {A B C D : Type} {Q : A → Store → B → Store → Prop} {σ σ' : Store}

theorem pure {a : A} {b : B} (h : Q a σ b σ') :
    Couple M Q (starting σ (Pure.pure a : PM A)) (starting σ' (Pure.pure b : PM B)) :=
  .ret a σ b σ' h (fun _ => rfl) fun _ => rfl

theorem mono {Q' : A → Store → B → Store → Prop} {f : Run A} {g : Run B} (h : Couple M Q f g)
    (hQ : ∀ a τ b τ', Q a τ b τ' → Q' a τ b τ') : Couple M Q' f g := by
  induction h with
  | ret a τ b τ' h hf hg => exact .ret a τ b τ' (hQ _ _ _ _ h) hf hg
  | block n e _ ih => exact .block n e ih

/-- Facts about the results of the first program can be added. -/
theorem left {P : A → Store → Prop} {f : Run A} {g : Run B} (h : Couple M Q f g)
    (hP : ∀ r a w, f r = .ok (a, w) → P a w.store) :
    Couple M (fun a τ b τ' => Q a τ b τ' ∧ P a τ) f g := by
  induction h with
  | ret a τ b τ' h hf hg => exact .ret a τ b τ' ⟨h, hP (fun _ => 0) _ _ (hf _)⟩ hf hg
  | block n e _ ih => exact .block n e fun y => ih y fun r a w h => hP _ _ _ h

theorem bindRun {Q' : C → Store → D → Store → Prop} {f : Run A} {g : Run B} {k : A → PM C} {k' : B → PM D}
    (h : Couple M Q f g)
    (hk : ∀ a τ b τ', Q a τ b τ' → Couple M Q' (starting τ (k a)) (starting τ' (k' b))) :
    Couple M Q' (fun r => f r >>= fun x => k x.1 x.2) (fun r => g r >>= fun x => k' x.1 x.2) := by
  induction h with
  | @ret f g a τ b τ' h hf hg =>
    have := hk a τ b τ' h
    have e1 : (fun r => f r >>= fun x => k x.1 x.2) = starting τ (k a) := by
      funext r; rw [hf r]; rfl
    have e2 : (fun r => g r >>= fun x => k' x.1 x.2) = starting τ' (k' b) := by
      funext r; rw [hg r]; rfl
    rw [e1, e2]; exact this
  | block n e _ ih => exact .block n e ih

theorem bind {Q' : C → Store → D → Store → Prop} {p : PM A} {p' : PM B} {k : A → PM C} {k' : B → PM D}
    (h : Couple M Q (starting σ p) (starting σ' p'))
    (hk : ∀ a τ b τ', Q a τ b τ' → Couple M Q' (starting τ (k a)) (starting τ' (k' b))) :
    Couple M Q' (starting σ (p >>= k)) (starting σ' (p' >>= k')) := bindRun h hk

theorem get {f : Store → PM A} {g : Store → PM B} (h : Couple M Q (starting σ (f σ)) (starting σ' (g σ'))) :
    Couple M Q (starting σ (getStore >>= f)) (starting σ' (getStore >>= g)) := h

theorem lift {x : Except Err C} {y : Except Err D} {c : C} {d : D} (hx : x = .ok c) (hy : y = .ok d)
    {f : C → PM A} {g : D → PM B} (h : Couple M Q (starting σ (f c)) (starting σ' (g d))) :
    Couple M Q (starting σ (liftE x >>= f)) (starting σ' (liftE y >>= g)) := by
  subst hx; subst hy; exact h

/-- Programs that end with certainty. -/
theorem ends {p : PM A} {p' : PM B} {a : A} {b : B} {τ τ' : Store} (h : Q a τ b τ')
    (hp : ∀ r, p ⟨σ, r⟩ = .ok (a, ⟨τ, r⟩)) (hp' : ∀ r, p' ⟨σ', r⟩ = .ok (b, ⟨τ', r⟩)) :
    Couple M Q (starting σ p) (starting σ' p') := .ret a τ b τ' h hp hp'

/-- Programs that read one block. -/
theorem reading {p : PM A} {p' : PM B} (n : Nat) (e : Equiv.Perm (Fin n → Fin M))
    (h : ∀ y, ∃ a τ b τ', Q a τ b τ' ∧ ∀ r, p ⟨σ, tape y r⟩ = .ok (a, ⟨τ, r⟩) ∧
      p' ⟨σ', tape (e y) r⟩ = .ok (b, ⟨τ', r⟩)) :
    Couple M Q (starting σ p) (starting σ' p') := by
  refine .block n e fun y => ?_
  obtain ⟨a, τ, b, τ', hq, hr⟩ := h y
  exact .ret a τ b τ' hq (fun r => (hr r).1) fun r => (hr r).2

end Couple

/-! ### From matched programs to permutations of blocks -/

theorem Reads.blocks {M : Nat} {A : Type} : ∀ {k n : Nat} {f : Run A},
    (∀ y : Fin k → Fin M, Reads M n (fun r => f (tape y r))) → Reads M (n + k) f
  | 0, n, f, h => by
    have := h Fin.elim0
    simp only [tape_zero] at this
    exact this
  | k + 1, n, f, h => by
    refine .step (n := n + k) fun a ha => Reads.blocks fun y => ?_
    have := h (Fin.cons ⟨a, ha⟩ y)
    simpa only [tape_cons] using this

theorem Couple.reads {M : Nat} {A B : Type} {Q : A → Store → B → Store → Prop} {f : Run A} {g : Run B}
    (h : Couple M Q f g) : ∃ n, Reads M n f := by
  induction h with
  | ret a τ b τ' h hf hg => exact ⟨0, .stop a τ hf⟩
  | block k e _ ih =>
    choose n hn using ih
    exact ⟨(Finset.univ.sup n) + k, .blocks fun y => (hn y).mono (Finset.le_sup (f := n) (Finset.mem_univ y))⟩

/-- Every stream is left over for some stream. -/
theorem Couple.leftover_tail {M : Nat} {A B : Type} {Q : A → Store → B → Store → Prop} {f : Run A} {g : Run B}
    (hM : M ≠ 0) (h : Couple M Q f g) (r : Nat → Nat) :
    ∃ j r0, leftover (f r0) = some r ∧ ∀ i, r0 (i + j) = r i := by
  have : NeZero M := ⟨hM⟩
  induction h with
  | ret a τ b τ' h hf hg => exact ⟨0, r, by rw [hf]; rfl, fun _ => rfl⟩
  | block n e _ ih =>
    obtain ⟨j, r0, h1, h2⟩ := ih fun _ => 0
    refine ⟨j + n, tape (fun _ => 0) r0, h1, fun i => ?_⟩
    rw [← h2 i, ← Nat.add_assoc]
    simp [tape]

theorem Reads.drop {M : Nat} (hM : M ≠ 0) {A : Type} : ∀ {k n : Nat} {f : Run A}, Reads M n f →
    (∀ y : Fin k → Fin M, ∃ j r0, leftover (f (tape y r0)) = some (fun i => i) ∧ ∀ i, r0 (i + j) = i) →
    k ≤ n ∧ ∀ y : Fin k → Fin M, Reads M (n - k) (fun r => f (tape y r))
  | 0, n, f, h, _ => by
    refine ⟨Nat.zero_le _, fun y => ?_⟩
    simpa only [tape_zero, Nat.sub_zero] using h
  | k + 1, n, f, h, hc => by
    have : NeZero M := ⟨hM⟩
    cases h with
    | stop a σ hf =>
      exfalso
      obtain ⟨j, r0, h1, h2⟩ := hc fun _ => 0
      rw [hf] at h1
      simp only [leftover, Option.some.injEq] at h1
      have h3 := congrFun h1 (0 + j + (k + 1))
      have h4 : tape (fun _ : Fin (k + 1) => (0 : Fin M)) r0 (0 + j + (k + 1)) = r0 (0 + j) := by
        simp only [tape]
        rw [dif_neg (by omega)]
        congr 1
        omega
      rw [h4, h2] at h3
      omega
    | @step m _ h0 =>
      have key : ∀ a : Fin M, k ≤ m ∧ ∀ y : Fin k → Fin M, Reads M (m - k) (fun r => f (scons a (tape y r))) :=
        fun a => Reads.drop hM (h0 a a.2) fun y => by
          obtain ⟨j, r0, h1, h2⟩ := hc (Fin.cons a y)
          rw [tape_cons] at h1
          exact ⟨j, r0, h1, h2⟩
      refine ⟨by have := (key 0).1; omega, fun y => ?_⟩
      have h2 := (key (y 0)).2 (Fin.tail y)
      have e : (fun r => f (scons (y 0) (tape (Fin.tail y) r))) = fun r => f (tape y r) := by
        funext r
        rw [← tape_cons, Fin.cons_self_tail]
      rw [e] at h2
      rwa [show m + 1 - (k + 1) = m - k by omega]

/-- Matched programs have the same results on matched blocks. -/
theorem Couple.perm_of {M : Nat} {A B C : Type} {Q : A → Store → B → Store → Prop} {f : Run A} {g : Run B}
    (hM : M ≠ 0) (h : Couple M Q f g) : ∀ {n : Nat} {f0 : Run C}, Reads M n f0 →
    (∀ r, leftover (f0 r) = leftover (f r)) →
    ∃ e : Equiv.Perm (Fin n → Fin M), ∀ y, ∃ a τ b τ', Q a τ b τ' ∧ ∀ rest, ∃ r',
      f (tape y rest) = .ok (a, ⟨τ, r'⟩) ∧ g (tape (e y) rest) = .ok (b, ⟨τ', r'⟩) := by
  induction h with
  | ret a τ b τ' h hf hg =>
    intro n f0 _ _
    exact ⟨Equiv.refl _, fun y => ⟨a, τ, b, τ', h, fun rest => ⟨_, hf _, hg _⟩⟩⟩
  | @block f g k e0 ht ih =>
    intro n f0 h0 hl
    obtain ⟨hk, hd⟩ := h0.drop hM (k := k) fun y => by
      obtain ⟨j, r0, h1, h2⟩ := (ht y).leftover_tail hM (fun i => i)
      exact ⟨j, r0, by rw [hl]; exact h1, h2⟩
    obtain ⟨m, rfl⟩ : ∃ m, n = k + m := ⟨n - k, by omega⟩
    rw [Nat.add_sub_cancel_left] at hd
    choose e he using fun y => ih y (hd y) (fun r => hl (tape y r))
    refine ⟨(Fin.appendEquiv k m).symm.trans ((Equiv.prodShear e0 e).trans (Fin.appendEquiv k m)), fun y => ?_⟩
    obtain ⟨a, b, rfl⟩ := append_surj y
    obtain ⟨v, τ, v', τ', hq, hr⟩ := he a b
    refine ⟨v, τ, v', τ', hq, fun rest => ?_⟩
    obtain ⟨r', h1, h2⟩ := hr rest
    refine ⟨r', by rw [tape_append]; exact h1, ?_⟩
    have : ((Fin.appendEquiv k m).symm.trans ((Equiv.prodShear e0 e).trans (Fin.appendEquiv k m))) (Fin.append a b) =
        Fin.append (e0 a) (e a b) := by
      have e1 : Fin.append a b = Fin.appendEquiv k m (a, b) := rfl
      rw [e1]
      simp only [Equiv.trans_apply, Equiv.symm_apply_apply]
      rfl
    rw [this, tape_append]
    exact h2

end Zksk.Peer
