import Verif.SpecOracle
import Verif.Lemmas.Chance
import Mathlib.Logic.Equiv.Prod
import Mathlib.Data.Finite.Sigma

/-! Games with random hash functions. -/

set_option linter.unusedSectionVars false

namespace Zksk.Oracle

open Spec

variable {E : Type} {Y : Type} [Finite Y] {sha : List UInt8 → List UInt8} {Q Ans : Finset (List UInt8)}

abbrev Bytes := List UInt8

/-- Tables. -/
abbrev Table (Q Ans : Finset Bytes) := {x // x ∈ Q} → {a // a ∈ Ans}

open Classical in
/-- One answer replaced. -/
noncomputable def upd (H : Table Q Ans) (x : {x // x ∈ Q}) (a : {a // a ∈ Ans}) : Table Q Ans := Function.update H x a

theorem answering_oracle (H : Table Q Ans) (x : {x // x ∈ Q}) (a : {a // a ∈ Ans}) :
    answering (oracle sha Q Ans H) x.1 a.1 = oracle sha Q Ans (upd H x a) := by
  classical
  funext z
  unfold answering oracle upd
  by_cases hz : z = x.1
  · subst hz
    rw [if_pos rfl, dif_pos x.2]
    simp
  · rw [if_neg hz]
    by_cases h : z ∈ Q
    · rw [dif_pos h, dif_pos h, Function.update_of_ne]
      intro e
      exact hz (congrArg Subtype.val e)
    · rw [dif_neg h, dif_neg h]

/-- Replacing an answer, remembering the old one. -/
noncomputable def swap (ask : Y → {x // x ∈ Q}) :
    Table Q Ans × {a // a ∈ Ans} × Y ≃ Table Q Ans × {a // a ∈ Ans} × Y where
  toFun p := (upd p.1 (ask p.2.2) p.2.1, p.1 (ask p.2.2), p.2.2)
  invFun p := (upd p.1 (ask p.2.2) p.2.1, p.1 (ask p.2.2), p.2.2)
  left_inv p := by simp [upd]
  right_inv p := by simp [upd]

variable {R : (Bytes → Bytes) → Y → NIZK E → Prop} {Sm : (Bytes → Bytes) → Bytes → Y → NIZK E → Bytes → Prop}

/-- Two ways to make a proof that depend on a hash function: the second can choose one answer. -/
structure Game (R : (Bytes → Bytes) → Y → NIZK E → Prop) (Sm : (Bytes → Bytes) → Bytes → Y → NIZK E → Bytes → Prop)
    (ask : Y → Bytes) : Prop where
  key : ∀ a, ∃ e : Equiv.Perm Y, ∀ f y, ∃ π, (∀ π', R (answering f (ask y) a) y π' ↔ π' = π) ∧
    ∀ π' x, Sm f a (e y) π' x ↔ π' = π ∧ x = ask y

variable {D : (Bytes → Bytes) → (Bytes → Bytes) → NIZK E → Prop}

/-- Yes to real proofs. -/
def RealYes (sha : Bytes → Bytes) (Q Ans : Finset Bytes) (R : (Bytes → Bytes) → Y → NIZK E → Prop)
    (D : (Bytes → Bytes) → (Bytes → Bytes) → NIZK E → Prop) : Table Q Ans × Y → Prop := fun p =>
  ∃ π, R (oracle sha Q Ans p.1) p.2 π ∧ D (oracle sha Q Ans p.1) (oracle sha Q Ans p.1) π

/-- Yes to made-up proofs. -/
def SimYes (sha : Bytes → Bytes) (Q Ans : Finset Bytes) (Sm : (Bytes → Bytes) → Bytes → Y → NIZK E → Bytes → Prop)
    (D : (Bytes → Bytes) → (Bytes → Bytes) → NIZK E → Prop) : Table Q Ans × {a // a ∈ Ans} × Y → Prop := fun p =>
  ∃ π x, Sm (oracle sha Q Ans p.1) p.2.1.1 p.2.2 π x ∧
    D (oracle sha Q Ans p.1) (answering (oracle sha Q Ans p.1) x p.2.1.1) π

/-- In between: real proofs, for a hash function with one answer changed. -/
def MidYes (sha : Bytes → Bytes) (Q Ans : Finset Bytes) (ask : Y → {x // x ∈ Q}) (R : (Bytes → Bytes) → Y → NIZK E → Prop)
    (D : (Bytes → Bytes) → (Bytes → Bytes) → NIZK E → Prop) : Table Q Ans × {a // a ∈ Ans} × Y → Prop := fun p =>
  ∃ π, R (oracle sha Q Ans (upd p.1 (ask p.2.2) p.2.1)) p.2.2 π ∧
    D (oracle sha Q Ans p.1) (oracle sha Q Ans (upd p.1 (ask p.2.2) p.2.1)) π

theorem sim_mid {ask : Y → {x // x ∈ Q}} (g : Game R Sm fun y => (ask y).1) :
    Nat.card {p // SimYes sha Q Ans Sm D p} = Nat.card {p // MidYes sha Q Ans ask R D p} := by
  choose e he using g.key
  let E' : Table Q Ans × {a // a ∈ Ans} × Y ≃ Table Q Ans × {a // a ∈ Ans} × Y :=
    Equiv.prodCongr (Equiv.refl _) (Equiv.prodShear (Equiv.refl _) fun a => e a.1)
  refine (Nat.card_congr (E'.subtypeEquiv fun p => ?_)).symm
  obtain ⟨H, a, y⟩ := p
  obtain ⟨π, h1, h2⟩ := he a.1 (oracle sha Q Ans H) y
  rw [answering_oracle] at h1
  show (∃ π, _ ∧ _) ↔ ∃ π x, Sm _ a.1 (e a.1 y) π x ∧ _
  constructor
  · rintro ⟨π', h3, h4⟩
    obtain rfl := (h1 π').mp h3
    exact ⟨_, _, (h2 _ _).mpr ⟨rfl, rfl⟩, by rw [answering_oracle]; exact h4⟩
  · rintro ⟨π', x, h3, h4⟩
    obtain ⟨rfl, rfl⟩ := (h2 _ _).mp h3
    rw [answering_oracle] at h4
    exact ⟨_, (h1 _).mpr rfl, h4⟩

/-- If only the hash function afterwards matters. -/
theorem mid_real {ask : Y → {x // x ∈ Q}} (hD : ∀ f g h π, D f h π ↔ D g h π) :
    Nat.card {p // MidYes sha Q Ans ask R D p} = Ans.card * Nat.card {p // RealYes sha Q Ans R D p} := by
  have e1 : {p // MidYes sha Q Ans ask R D p} ≃ {p : Table Q Ans × {a // a ∈ Ans} × Y // RealYes sha Q Ans R D (p.1, p.2.2)} :=
    (swap ask).subtypeEquiv fun p => by
      unfold MidYes RealYes swap
      simp only [Equiv.coe_fn_mk]
      exact exists_congr fun π => and_congr_right fun _ => hD _ _ _ _
  have e2 : {p : Table Q Ans × {a // a ∈ Ans} × Y // RealYes sha Q Ans R D (p.1, p.2.2)} ≃
      {a // a ∈ Ans} × {p // RealYes sha Q Ans R D p} :=
    { toFun := fun p => (p.1.2.1, ⟨(p.1.1, p.1.2.2), p.2⟩)
      invFun := fun p => ⟨(p.2.1.1, p.1, p.2.1.2), p.2.2⟩
      left_inv := fun _ => rfl
      right_inv := fun _ => rfl }
  rw [Nat.card_congr (e1.trans e2), Nat.card_prod]
  simp

/-- Nothing learnt before: no difference. -/
theorem later {ask : Y → {x // x ∈ Q}} (g : Game R Sm fun y => (ask y).1) (hD : ∀ f g h π, D f h π ↔ D g h π) :
    Nat.card {p // SimYes sha Q Ans Sm D p} = Ans.card * Nat.card {p // RealYes sha Q Ans R D p} := by
  rw [sim_mid g, mid_real hD]

/-- Cases in which the question was asked before. -/
theorem bad_count {q k B : Nat} {ask : Y → {x // x ∈ Q}} {S : (Bytes → Bytes) → Finset Bytes} (hS : ∀ f, (S f).card ≤ k)
    (hB : ∀ x, q * Nat.card {y // (ask y).1 = x} ≤ B) :
    q * Nat.card {p : Table Q Ans × {a // a ∈ Ans} × Y // (ask p.2.2).1 ∈ S (oracle sha Q Ans p.1)} ≤
      k * (Nat.card (Table Q Ans) * Ans.card * B) := by
  classical
  let T : Table Q Ans → Type := fun H => {y // (ask y).1 ∈ S (oracle sha Q Ans H)}
  have hT : ∀ H, q * Nat.card (T H) ≤ k * B := by
    intro H
    let g : T H → (x : {x // x ∈ S (oracle sha Q Ans H)}) × {y // (ask y).1 = x.1} := fun y => ⟨⟨_, y.2⟩, y.1, rfl⟩
    have hg : Function.Injective g := by
      intro y y' he
      have : (g y).2.1 = (g y').2.1 := by rw [he]
      exact Subtype.ext this
    have h1 := Nat.card_le_card_of_injective g hg
    rw [Nat.card_sigma] at h1
    calc q * Nat.card (T H) ≤ q * ∑ x : {x // x ∈ S (oracle sha Q Ans H)}, Nat.card {y // (ask y).1 = x.1} :=
          Nat.mul_le_mul_left _ h1
      _ = ∑ x : {x // x ∈ S (oracle sha Q Ans H)}, q * Nat.card {y // (ask y).1 = x.1} := Finset.mul_sum ..
      _ ≤ ∑ _x : {x // x ∈ S (oracle sha Q Ans H)}, B := Finset.sum_le_sum fun x _ => hB x.1
      _ = (S (oracle sha Q Ans H)).card * B := by simp
      _ ≤ k * B := Nat.mul_le_mul_right _ (hS _)
  have e : {p : Table Q Ans × {a // a ∈ Ans} × Y // (ask p.2.2).1 ∈ S (oracle sha Q Ans p.1)} ≃
      {a // a ∈ Ans} × ((H : Table Q Ans) × T H) :=
    { toFun := fun p => (p.1.2.1, ⟨p.1.1, p.1.2.2, p.2⟩)
      invFun := fun p => ⟨(p.2.1, p.1, p.2.2.1), p.2.2.2⟩
      left_inv := fun _ => rfl
      right_inv := fun _ => rfl }
  rw [Nat.card_congr e, Nat.card_prod, Nat.card_sigma]
  have : q * ∑ H : Table Q Ans, Nat.card (T H) ≤ Nat.card (Table Q Ans) * (k * B) := by
    calc q * ∑ H : Table Q Ans, Nat.card (T H) = ∑ H : Table Q Ans, q * Nat.card (T H) := Finset.mul_sum ..
      _ ≤ ∑ _H : Table Q Ans, k * B := Finset.sum_le_sum fun H _ => hT H
      _ = Nat.card (Table Q Ans) * (k * B) := by simp
  have hA : Nat.card {a // a ∈ Ans} = Ans.card := by simp
  rw [hA]
  calc q * (Ans.card * ∑ H : Table Q Ans, Nat.card (T H)) = Ans.card * (q * ∑ H : Table Q Ans, Nat.card (T H)) := by ring
    _ ≤ Ans.card * (Nat.card (Table Q Ans) * (k * B)) := Nat.mul_le_mul_left _ this
    _ = _ := by ring

theorem card_le_add {α : Type} [Finite α] {P P' B : α → Prop} (h : ∀ x, P x → P' x ∨ B x) :
    Nat.card {x // P x} ≤ Nat.card {x // P' x} + Nat.card {x // B x} := by
  classical
  have := Fintype.ofFinite α
  simp only [Nat.card_eq_fintype_card, Fintype.card_subtype]
  refine le_trans (Finset.card_le_card (t := Finset.univ.filter P' ∪ Finset.univ.filter B) ?_) (Finset.card_union_le _ _)
  intro x hx
  simpa using h x (by simpa using hx)

/-- Few questions asked before: little difference. -/
theorem before {q k B : Nat} {ask : Y → {x // x ∈ Q}} {S : (Bytes → Bytes) → Finset Bytes}
    (g : Game R Sm fun y => (ask y).1) (hD : Observer k S D) (hB : ∀ x, q * Nat.card {y // (ask y).1 = x} ≤ B) :
    q * Nat.card {p // SimYes sha Q Ans Sm D p} ≤ q * (Ans.card * Nat.card {p // RealYes sha Q Ans R D p}) +
      k * (Nat.card (Table Q Ans) * Ans.card * B) ∧
    q * (Ans.card * Nat.card {p // RealYes sha Q Ans R D p}) ≤ q * Nat.card {p // SimYes sha Q Ans Sm D p} +
      k * (Nat.card (Table Q Ans) * Ans.card * B) := by
  classical
  have hb := bad_count (sha := sha) (Ans := Ans) (ask := ask) hD.few hB
  have hr : Nat.card {p // RealYes sha Q Ans R D p} = Nat.card {p // RealYes sha Q Ans R (fun _ h π => D h h π) p} := rfl
  have hm := mid_real (sha := sha) (Ans := Ans) (R := R) (ask := ask) (D := fun _ h π => D h h π) fun _ _ _ _ => Iff.rfl
  rw [hr, ← hm, sim_mid g]
  have hsame : ∀ p : Table Q Ans × {a // a ∈ Ans} × Y, (ask p.2.2).1 ∉ S (oracle sha Q Ans p.1) →
      (MidYes sha Q Ans ask R D p ↔ MidYes sha Q Ans ask R (fun _ h π => D h h π) p) := by
    intro p hp
    refine exists_congr fun π => and_congr_right fun _ => hD.asked _ _ (fun s hs => ?_) _ _
    have hne : s ≠ (ask p.2.2).1 := fun e => hp (e ▸ hs)
    rw [← answering_oracle]
    simp [answering, hne]
  constructor
  · have := card_le_add (P := MidYes sha Q Ans ask R D) (P' := MidYes sha Q Ans ask R (fun _ h π => D h h π))
      (B := fun p => (ask p.2.2).1 ∈ S (oracle sha Q Ans p.1)) fun p hp =>
        (em _).elim .inr fun hn => .inl ((hsame p hn).mp hp)
    have h2 := Nat.mul_le_mul_left q this
    rw [Nat.mul_add] at h2
    exact h2.trans (Nat.add_le_add_left hb _)
  · have := card_le_add (P' := MidYes sha Q Ans ask R D) (P := MidYes sha Q Ans ask R (fun _ h π => D h h π))
      (B := fun p => (ask p.2.2).1 ∈ S (oracle sha Q Ans p.1)) fun p hp =>
        (em _).elim .inr fun hn => .inl ((hsame p hn).mpr hp)
    have h2 := Nat.mul_le_mul_left q this
    rw [Nat.mul_add] at h2
    exact h2.trans (Nat.add_le_add_left hb _)

end Zksk.Oracle
