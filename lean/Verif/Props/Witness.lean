import Verif.Lemmas.Witness
import Verif.Props.Hiding

/-! # C59: proofs do not tell which values of the secrets the prover knows -/

set_option linter.unusedSectionVars false

namespace Zksk.Props

open Spec

variable {E : Type} [AddCommGroup E] [DecidableEq E]

/-- What is assumed of a prover who knows the values `d`, on the heap `σ`: the statement is true for its values. -/
structure Knows (t : Core E) (σ : Store) (d : Dict Int) (X : Key → Int) : Prop where
  uniq : d.Uniq (heapFor σ d t)
  sat : Satisfied (heapFor σ d t) d X t
  comp : Composable (heapFor σ d t) t

private theorem tape_rest {n M : Nat} (y : Fin n → Fin M) (rest : Nat → Nat) :
    (fun i => tape y rest (i + n)) = rest := by
  funext i
  simp only [tape]
  rw [dif_neg (by omega)]
  congr 1
  omega

private theorem toNat_mod {z : Int} {M : Nat} (h : M ≠ 0) : (((z % (M : Int)).toNat % M : Nat) : Int) = z % (M : Int) := by
  rw [Int.natCast_mod, Int.toNat_of_nonneg (Int.emod_nonneg _ (by exact_mod_cast h)), Int.emod_emod]

/-- The translation of random numbers for one challenge. -/
private def shiftBy {n : Nat} (M : Nat) [NeZero M] (z : Fin n → Int) : Fin n → Fin M :=
  fun j => Fin.ofNat M ((z j) % (M : Int)).toNat

private theorem shift_law {M : Nat} [NeZero M] {D : List (Sec × Nat)} (hdvd : ∀ e ∈ D, e.2 ∣ M) (f g : Sec → Int) (c : Int)
    (x : Fin D.length → Fin M) (rest rest' : Nat → Nat) (j : Nat) (e : Sec × Nat) (he : D[j]? = some e) :
    ((tape x rest j : Int) + f e.1 * c) % (e.2 : Int) =
      ((tape (x + shiftBy M fun j => (f (List.get D j).1 - g (List.get D j).1) * c) rest' j : Int) + g e.1 * c) % (e.2 : Int) := by
  obtain ⟨hj, he'⟩ := List.getElem?_eq_some_iff.mp he
  have hMe : (e.2 : Int) ∣ (M : Int) := Int.natCast_dvd_natCast.mpr (hdvd e (List.mem_of_getElem? he))
  simp only [tape, dif_pos hj, Pi.add_apply, Fin.val_add, shiftBy, Fin.val_ofNat, List.get_eq_getElem, he']
  have h1 := toNat_mod (z := (f e.1 - g e.1) * c) (NeZero.ne M)
  refine (Int.emod_eq_emod_iff_emod_sub_eq_zero.mpr (Int.emod_eq_zero_of_dvd ?_))
  rw [Int.natCast_mod, Int.natCast_add, h1]
  have e1 := Int.emod_add_mul_ediv ((x ⟨j, hj⟩ : Int) + (f e.1 - g e.1) * c % (M : Int)) M
  have e2 := Int.emod_add_mul_ediv ((f e.1 - g e.1) * c) M
  obtain ⟨k, hk⟩ := hMe
  refine ⟨k * ((f e.1 - g e.1) * c / M + ((x ⟨j, hj⟩ : Int) + (f e.1 - g e.1) * c % (M : Int)) / M), ?_⟩
  rw [← mul_assoc, ← hk]
  linarith

/-- **C59** For every challenge, transcripts of the interactive protocol with two provers who know different values
for which the statement is true are the same up to a translation of the random numbers. -/
theorem C59_interactive (env : Env E) (t : Core E) (c : Int) (M : Nat) (hM0 : M ≠ 0)
    (hM : ∀ x b, (x, b) ∈ terms t → b.grp.order ∣ M) (hs : Solid t) (ht : Torsion t) (hf : OrFree t)
    (σ₁ σ₂ : Store) (d₁ d₂ : Dict Int) (X₁ X₂ : Key → Int) (h₁ : Knows t σ₁ d₁ X₁) (h₂ : Knows t σ₂ d₂ X₂)
    (hsee : SeesSame (heapFor σ₁ d₁ t) (heapFor σ₂ d₂ t) (secrets t)) :
    ∃ (n : Nat) (e : Equiv.Perm (Fin n → Fin M)), ∀ (x : Fin n → Fin M) (rest : Nat → Nat), ∃ T,
      honestRun env t d₁ c ⟨σ₁, tape x rest⟩ = .ok ((.none, T), ⟨heapFor σ₁ d₁ t, rest⟩) ∧
      honestRun env t d₂ c ⟨σ₂, tape (e x) rest⟩ = .ok ((.none, T), ⟨heapFor σ₂ d₂ t, rest⟩) := by
  haveI : NeZero M := ⟨hM0⟩
  have hdvd := table_dvd hs h₁.comp hf hM
  generalize hD : table (heapFor σ₁ d₁ t) t = D at hdvd
  refine ⟨D.length, Equiv.addRight (shiftBy M fun j => (X₁ ((heapFor σ₁ d₁ t).key (List.get D j).1) -
    X₂ ((heapFor σ₂ d₂ t).key (List.get D j).1)) * c), fun x rest => ?_⟩
  obtain ⟨T, i1, i2⟩ := two_runs (w₁ := ⟨σ₁, tape x rest⟩) (w₂ := ⟨σ₂, tape (x + _) rest⟩) hs ht hf h₁.uniq h₂.uniq
    h₁.sat h₂.sat h₁.comp h₂.comp hsee env c
    (fun e he h0 => hM0 (Nat.eq_zero_of_zero_dvd (h0 ▸ hdvd e (hD ▸ he))))
    (fun j e he => shift_law hdvd (fun x => X₁ ((heapFor σ₁ d₁ t).key x)) (fun x => X₂ ((heapFor σ₂ d₂ t).key x)) c x
      rest rest j e (hD ▸ he))
  rw [hD, tape_rest] at i1 i2
  exact ⟨T, i1, i2⟩

/-- `C59_proofs_coincide` with the number of random numbers. -/
theorem proofs_coincide (env : Env E) (t : Core E) (msg : String) (M : Nat) (hM0 : M ≠ 0)
    (hM : ∀ x b, (x, b) ∈ terms t → b.grp.order ∣ M) (hs : Solid t) (ht : Torsion t) (hf : OrFree t)
    (σ₁ σ₂ : Store) (d₁ d₂ : Dict Int) (X₁ X₂ : Key → Int) (h₁ : Knows t σ₁ d₁ X₁) (h₂ : Knows t σ₂ d₂ X₂)
    (hsee : SeesSame (heapFor σ₁ d₁ t) (heapFor σ₂ d₂ t) (secrets t)) :
    ∃ (e : Equiv.Perm (Fin (table (heapFor σ₁ d₁ t) t).length → Fin M)), ∀ (x : Fin (table (heapFor σ₁ d₁ t) t).length → Fin M) (rest : Nat → Nat), ∃ nizk t₁ t₂,
      prove (DLRepProver E) env t d₁ msg ⟨σ₁, tape x rest⟩ = .ok ((nizk, t₁), ⟨heapFor σ₁ d₁ t, rest⟩) ∧
      prove (DLRepProver E) env t d₂ msg ⟨σ₂, tape (e x) rest⟩ = .ok ((nizk, t₂), ⟨heapFor σ₂ d₂ t, rest⟩) := by
  haveI : NeZero M := ⟨hM0⟩
  have hdvd := table_dvd hs h₁.comp hf hM
  generalize hD : table (heapFor σ₁ d₁ t) t = D at hdvd ⊢
  have hpos : ∀ e ∈ table (heapFor σ₁ d₁ t) t, e.2 ≠ 0 :=
    fun e he h0 => hM0 (Nat.eq_zero_of_zero_dvd (h0 ▸ hdvd e (hD ▸ he)))
  let a : Int → Fin D.length → Fin M := fun c => shiftBy M fun j => (X₁ ((heapFor σ₁ d₁ t).key (List.get D j).1) -
    X₂ ((heapFor σ₂ d₂ t).key (List.get D j).1)) * c
  have hid : Tree.proofId (heapFor σ₁ d₁ t) t = Tree.proofId (heapFor σ₂ d₂ t) t :=
    (Tree.proofId_eq_iff (skel_core _) (skel_core _) (secretVars_core _) (secretVars_core _)).mpr ⟨rfl, hsee.1⟩
  -- what the first prover does with `x`
  have key : ∀ x : Fin D.length → Fin M, ∃ (c : Int) (nizk : NIZK E), nizk.challenge = c ∧ ∀ rest, ∃ t₁ t₂,
      prove (DLRepProver E) env t d₁ msg ⟨σ₁, tape x rest⟩ = .ok ((nizk, t₁), ⟨heapFor σ₁ d₁ t, rest⟩) ∧
      prove (DLRepProver E) env t d₂ msg ⟨σ₂, tape (x + a c) rest⟩ = .ok ((nizk, t₂), ⟨heapFor σ₂ d₂ t, rest⟩) := by
    intro x
    obtain ⟨n0, t0, w0, hp0, _⟩ := C49_prove_succeeds env t d₁ ⟨σ₁, tape x fun _ => 0⟩ msg X₁ hs ht h₁.uniq h₁.sat h₁.comp
    obtain ⟨id, com, u, e1, e2, e3⟩ := prove_honest (w := ⟨σ₁, tape x fun _ => 0⟩) hs ht h₁.uniq h₁.sat h₁.comp hf env msg
    have hfs := e3 _ _ _ hp0
    -- the transcript does not depend on the rest of the stream
    have hT : ∃ T, ∀ rest, honestRun env t d₁ n0.challenge ⟨σ₁, tape x rest⟩ =
          .ok ((.none, T), ⟨heapFor σ₁ d₁ t, rest⟩) ∧
        honestRun env t d₂ n0.challenge ⟨σ₂, tape (x + a n0.challenge) rest⟩ =
          .ok ((.none, T), ⟨heapFor σ₂ d₂ t, rest⟩) := by
      have both : ∀ rest rest', ∃ T, honestRun env t d₁ n0.challenge ⟨σ₁, tape x rest⟩ =
          .ok ((.none, T), ⟨heapFor σ₁ d₁ t, rest⟩) ∧
          honestRun env t d₂ n0.challenge ⟨σ₂, tape (x + a n0.challenge) rest'⟩ =
          .ok ((.none, T), ⟨heapFor σ₂ d₂ t, rest'⟩) := by
        intro rest rest'
        obtain ⟨T, i1, i2⟩ := two_runs (w₁ := ⟨σ₁, tape x rest⟩) (w₂ := ⟨σ₂, tape (x + a n0.challenge) rest'⟩) hs ht hf
          h₁.uniq h₂.uniq h₁.sat h₂.sat h₁.comp h₂.comp hsee env n0.challenge hpos
          (fun j e he => shift_law hdvd (fun x => X₁ ((heapFor σ₁ d₁ t).key x))
            (fun x => X₂ ((heapFor σ₂ d₂ t).key x)) n0.challenge x rest rest' j e (hD ▸ he))
        rw [hD, tape_rest] at i1 i2
        exact ⟨T, i1, i2⟩
      obtain ⟨T, _, k2⟩ := both (fun _ => 0) (fun _ => 0)
      refine ⟨T, fun rest => ?_⟩
      obtain ⟨T1, k3, k4⟩ := both rest (fun _ => 0)
      obtain ⟨T2, k5, k6⟩ := both rest rest
      have q1 : T1 = T := by
        rw [k2] at k4
        simp only [Except.ok.injEq, Prod.mk.injEq, true_and, and_true] at k4
        exact k4.symm
      have q2 : T2 = T1 := by
        rw [k3] at k5
        simp only [Except.ok.injEq, Prod.mk.injEq, true_and, and_true] at k5
        exact k5.symm
      exact ⟨q1 ▸ k3, q1 ▸ q2 ▸ k6⟩
    obtain ⟨T, hT⟩ := hT
    obtain ⟨_, f2, f3, _, _⟩ := e2 _ _ _ _ (hT fun _ => 0).1
    refine ⟨n0.challenge, ⟨n0.challenge, T.responses, .none, T.hash⟩, rfl, fun rest => ?_⟩
    obtain ⟨id1, com1, u1, g1, g2, _⟩ := prove_honest (w := ⟨σ₁, tape x rest⟩) hs ht h₁.uniq h₁.sat h₁.comp hf env msg
    obtain ⟨id2, com2, u2, i1, i2, _⟩ := prove_honest (w := ⟨σ₂, tape (x + a n0.challenge) rest⟩) hs ht h₂.uniq h₂.sat
      h₂.comp hf env msg
    obtain ⟨_, _, g3, _, g4⟩ := g2 _ _ _ _ (hT rest).1
    obtain ⟨_, _, i3, _, i4⟩ := i2 _ _ _ _ (hT rest).2
    obtain rfl : id = id1 := Except.ok.inj (e1.symm.trans g1)
    obtain rfl : id = id2 := Except.ok.inj (e1.symm.trans (hid.trans i1))
    exact ⟨u1, u2, g4 (by rw [← g3, f3]; exact hfs), i4 (by rw [← i3, f3]; exact hfs)⟩
  choose c nizk hc hk using key
  have hinj : Function.Injective fun x => x + a (c x) := by
    intro x y hxy
    simp only at hxy
    obtain ⟨_, _, _, h3⟩ := hk x fun _ => 0
    obtain ⟨_, _, _, h4⟩ := hk y fun _ => 0
    rw [hxy, h4] at h3
    simp only [Except.ok.injEq, Prod.mk.injEq, and_true] at h3
    have : c x = c y := by rw [← hc x, ← hc y, h3.1]
    rw [this] at hxy
    exact add_right_cancel hxy
  refine ⟨Equiv.ofBijective _ (Finite.injective_iff_bijective.mp hinj), fun x rest => ?_⟩
  obtain ⟨t₁, t₂, k1, k2⟩ := hk x rest
  exact ⟨nizk x, t₁, t₂, k1, k2⟩

/-- **C59** The same for non-interactive proofs: over blocks of `n` random numbers below `M` there is a bijection such
that the two provers make the very same proof from corresponding blocks. -/
theorem C59_proofs_coincide (env : Env E) (t : Core E) (msg : String) (M : Nat) (hM0 : M ≠ 0)
    (hM : ∀ x b, (x, b) ∈ terms t → b.grp.order ∣ M) (hs : Solid t) (ht : Torsion t) (hf : OrFree t)
    (σ₁ σ₂ : Store) (d₁ d₂ : Dict Int) (X₁ X₂ : Key → Int) (h₁ : Knows t σ₁ d₁ X₁) (h₂ : Knows t σ₂ d₂ X₂)
    (hsee : SeesSame (heapFor σ₁ d₁ t) (heapFor σ₂ d₂ t) (secrets t)) :
    ∃ (n : Nat) (e : Equiv.Perm (Fin n → Fin M)), ∀ (x : Fin n → Fin M) (rest : Nat → Nat), ∃ nizk t₁ t₂,
      prove (DLRepProver E) env t d₁ msg ⟨σ₁, tape x rest⟩ = .ok ((nizk, t₁), ⟨heapFor σ₁ d₁ t, rest⟩) ∧
      prove (DLRepProver E) env t d₂ msg ⟨σ₂, tape (e x) rest⟩ = .ok ((nizk, t₂), ⟨heapFor σ₂ d₂ t, rest⟩) :=
  ⟨_, proofs_coincide env t msg M hM0 hM hs ht hf σ₁ σ₂ d₁ d₂ X₁ X₂ h₁ h₂ hsee⟩

/-- **C59** The distributions coincide: over the blocks of `n` uniform numbers below `M`, every proof is made by the
first prover exactly as often as by the second one. -/
theorem C59_same_distribution (env : Env E) (t : Core E) (msg : String) (M : Nat) (hM0 : M ≠ 0)
    (hM : ∀ x b, (x, b) ∈ terms t → b.grp.order ∣ M) (hs : Solid t) (ht : Torsion t) (hf : OrFree t)
    (σ₁ σ₂ : Store) (d₁ d₂ : Dict Int) (X₁ X₂ : Key → Int) (h₁ : Knows t σ₁ d₁ X₁) (h₂ : Knows t σ₂ d₂ X₂)
    (hsee : SeesSame (heapFor σ₁ d₁ t) (heapFor σ₂ d₂ t) (secrets t)) :
    ∃ n : Nat, ∀ (rest : Nat → Nat) (nizk : NIZK E),
      Nat.card {x : Fin n → Fin M // ∃ t' w', prove (DLRepProver E) env t d₁ msg ⟨σ₁, tape x rest⟩ = .ok ((nizk, t'), w')} =
      Nat.card {x : Fin n → Fin M // ∃ t' w', prove (DLRepProver E) env t d₂ msg ⟨σ₂, tape x rest⟩ = .ok ((nizk, t'), w')} := by
  obtain ⟨n, e, h⟩ := C59_proofs_coincide env t msg M hM0 hM hs ht hf σ₁ σ₂ d₁ d₂ X₁ X₂ h₁ h₂ hsee
  refine ⟨n, fun rest nizk => Nat.card_congr (e.subtypeEquiv fun x => ?_)⟩
  obtain ⟨nizk', t1, t2, h1, h2⟩ := h x rest
  rw [h1, h2]
  simp only [Except.ok.injEq, Prod.mk.injEq]
  constructor
  · rintro ⟨_, _, ⟨hT, _⟩, _⟩; exact ⟨_, _, ⟨hT, rfl⟩, rfl⟩
  · rintro ⟨_, _, ⟨hT, _⟩, _⟩; exact ⟨_, _, ⟨hT, rfl⟩, rfl⟩

/-- The hypotheses are met by `1 = x0·1 + x1·2` in `ℤ/7ℤ`, which is true for 2, 3 and for 3, 6. -/
example : Solid (.leaf Ex.rep1) ∧ Torsion (.leaf Ex.rep1) ∧ OrFree (.leaf Ex.rep1) ∧
    Knows (.leaf Ex.rep1) Ex.σ0 [(0, 2), (1, 3)] (fun κ => if κ = Ex.σ0.key 0 then 2 else 3) ∧
    Knows (.leaf Ex.rep1) Ex.σ0 [(0, 3), (1, 6)] (fun κ => if κ = Ex.σ0.key 0 then 3 else 6) ∧
    ∀ x b, (x, b) ∈ terms (.leaf Ex.rep1) → b.grp.order ∣ 7 := by
  have ht : ∀ x b, (x, b) ∈ terms (.leaf Ex.rep1) → b = Ex.P 1 ∨ b = Ex.P 2 := by
    intro x b hx
    simp only [terms, Ex.rep1, List.zip_cons_cons, List.zip_nil_right, List.mem_cons, Prod.mk.injEq,
      List.not_mem_nil, or_false] at hx
    rcases hx with ⟨_, rfl⟩ | ⟨_, rfl⟩ <;> simp
  refine ⟨by simp [Solid, Ex.rep1, Ex.P, Ex.G], fun x b hx => ?_, .rep _, ⟨?_, ?_, .leaf _⟩, ⟨?_, ?_, .leaf _⟩, fun x b hx => ?_⟩
  · rcases ht x b hx with rfl | rfl <;> decide
  · simp only [Dict.Uniq, heapFor]; decide
  · exact .rep _ (by decide) (.rep _ _ (by decide) (by decide))
  · simp only [Dict.Uniq, heapFor]; decide
  · exact .rep _ (by decide) (.rep _ _ (by decide) (by decide))
  · rcases ht x b hx with rfl | rfl <;> decide

end Zksk.Props
