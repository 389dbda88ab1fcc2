import Verif.Lemmas.Oracle
import Verif.Lemmas.Fork

/-! Two runs with one different answer. -/

set_option linter.unusedSectionVars false

namespace Zksk.Oracle

open Spec

variable {E : Type} {sha : List UInt8 → List UInt8} {Q Ans : Finset (List UInt8)}

/-- Runs that win with the question `x`. -/
theorem fork_one {β : Nat} {W V : Table Q Ans → Prop} (x : {x // x ∈ Q}) (near : {a // a ∈ Ans} → {a // a ∈ Ans} → Prop)
    (hβ : ∀ b, Nat.card {a : {a // a ∈ Ans} // near a b} ≤ β) (hV : ∀ H a, W H → V (upd H x a))
    (h : ∀ H a, W H → W (upd H x a) → near (H x) a) :
    Ans.card * Nat.card {H // W H} ≤ β * Nat.card {H // V H} := by
  classical
  by_cases hR : Nonempty {a // a ∈ Ans}
  swap
  · have : IsEmpty {H : Table Q Ans // W H} := ⟨fun H => hR ⟨H.1 x⟩⟩
    rw [Nat.card_of_isEmpty]
    simp
  -- one of the answers that win
  let cls : Table Q Ans → {a // a ∈ Ans} := fun H => if h : ∃ a, W (upd H x a) then h.choose else hR.some
  have hcls : ∀ H a, W H → near (H x) (cls (upd H x a)) := by
    intro H a hW
    have hex : ∃ b, W (upd (upd H x a) x b) := ⟨H x, by simpa [upd] using hW⟩
    simp only [cls, dif_pos hex]
    have h1 := hex.choose_spec
    have h2 : upd (upd H x a) x hex.choose = upd H x hex.choose := by simp [upd]
    rw [h2] at h1
    exact h H _ hW h1
  let g : {H : Table Q Ans // W H} × {a // a ∈ Ans} →
      (H : {H : Table Q Ans // V H}) × {a : {a // a ∈ Ans} // near a (cls H.1)} := fun p =>
    ⟨⟨upd p.1.1 x p.2, hV _ _ p.1.2⟩, p.1.1 x, hcls _ _ p.1.2⟩
  have hg : Function.Injective g := by
    rintro ⟨⟨H, hH⟩, a⟩ ⟨⟨H', hH'⟩, a'⟩ he
    have e1 : upd H x a = upd H' x a' := congrArg (fun z => z.1.1) he
    have e2 : H x = H' x := by
      have : (g (⟨H, hH⟩, a)).2.1 = (g (⟨H', hH'⟩, a')).2.1 := by rw [he]
      exact this
    have e3 : a = a' := by simpa [upd] using congrFun e1 x
    have e4 : H = H' := by
      funext z
      by_cases hz : z = x
      · rw [hz]; exact e2
      · have := congrFun e1 z
        simpa [upd, Function.update_of_ne hz] using this
    subst e3; subst e4; rfl
  have := Nat.card_le_card_of_injective g hg
  rw [Nat.card_prod, Nat.card_sigma] at this
  have hA : Nat.card {a // a ∈ Ans} = Ans.card := by simp
  rw [hA, Nat.mul_comm] at this
  refine this.trans ((Finset.sum_le_sum fun H _ => hβ (cls H.1)).trans ?_)
  simp [Nat.mul_comm]

/-- Runs that win with the question they end with. -/
theorem fork_all {β k : Nat} {W : Table Q Ans → Prop} (final : Table Q Ans → {x // x ∈ Q}) (S : Table Q Ans → Finset Bytes)
    (hS : ∀ H, (S H).card ≤ k) (hfin : ∀ H, W H → (final H).1 ∈ S H) (near : {a // a ∈ Ans} → {a // a ∈ Ans} → Prop)
    (hβ : ∀ b, Nat.card {a : {a // a ∈ Ans} // near a b} ≤ β)
    (hV : ∀ H (x : {x // x ∈ Q}) a, x.1 ∈ S H → x.1 ∈ S (upd H x a))
    (h : ∀ H a, W H → W (upd H (final H) a) → final (upd H (final H) a) = final H → near (H (final H)) a) :
    Ans.card * Nat.card {H // W H} ≤ k * β * Nat.card (Table Q Ans) := by
  classical
  let g : {H // W H} ≃ (x : {x // x ∈ Q}) × {H // W H ∧ final H = x} :=
    { toFun := fun H => ⟨final H.1, H.1, H.2, rfl⟩
      invFun := fun p => ⟨p.2.1, p.2.2.1⟩
      left_inv := fun _ => rfl
      right_inv := fun ⟨x, H, hW, hx⟩ => by subst hx; rfl }
  let g' : ((x : {x // x ∈ Q}) × {H : Table Q Ans // x.1 ∈ S H}) → (H : Table Q Ans) × {x // x ∈ S H} :=
    fun p => ⟨p.2.1, p.1.1, p.2.2⟩
  have hg' : Function.Injective g' := by
    rintro ⟨⟨x, hx⟩, H, hH⟩ ⟨⟨x', hx'⟩, H', hH'⟩ he
    have e1 : H = H' := congrArg (fun z => z.1) he
    subst e1
    have e2 : x = x' := by
      have := congrArg (fun z : (H : Table Q Ans) × {x // x ∈ S H} => z.2.1) he
      exact this
    subst e2; rfl
  have hsum := Nat.card_le_card_of_injective g' hg'
  rw [Nat.card_sigma, Nat.card_sigma] at hsum
  have hsum2 : ∑ x : {x // x ∈ Q}, Nat.card {H : Table Q Ans // x.1 ∈ S H} ≤ k * Nat.card (Table Q Ans) := by
    refine hsum.trans ((Finset.sum_le_sum fun H _ => (by simpa using hS H : Nat.card {x // x ∈ S H} ≤ k)).trans ?_)
    simp [Nat.mul_comm]
  rw [Nat.card_congr g, Nat.card_sigma, Finset.mul_sum]
  calc ∑ x : {x // x ∈ Q}, Ans.card * Nat.card {H // W H ∧ final H = x}
      ≤ ∑ x : {x // x ∈ Q}, β * Nat.card {H : Table Q Ans // x.1 ∈ S H} := by
        refine Finset.sum_le_sum fun x _ => fork_one x near hβ ?_ ?_
        · rintro H a ⟨hW, rfl⟩
          exact hV _ _ _ (hfin H hW)
        · rintro H a ⟨hW, rfl⟩ ⟨hW', hx⟩
          exact h H a hW hW' hx
    _ = β * ∑ x : {x // x ∈ Q}, Nat.card {H : Table Q Ans // x.1 ∈ S H} := (Finset.mul_sum ..).symm
    _ ≤ β * (k * Nat.card (Table Q Ans)) := Nat.mul_le_mul_left _ hsum2
    _ = k * β * Nat.card (Table Q Ans) := by ring

/-- Whoever asks does so whatever the answer. -/
theorem asked_anyway {S : (Bytes → Bytes) → Finset Bytes} (hS : ∀ f g, (∀ s ∈ S f, g s = f s) → S g = S f)
    (H : Table Q Ans) (x : {x // x ∈ Q}) (a : {a // a ∈ Ans}) (hx : x.1 ∈ S (oracle sha Q Ans H)) :
    x.1 ∈ S (oracle sha Q Ans (upd H x a)) := by
  by_contra hn
  rw [← answering_oracle] at hn
  have := hS (answering (oracle sha Q Ans H) x.1 a.1) (oracle sha Q Ans H) fun s hs => by
    have : s ≠ x.1 := fun e => hn (e ▸ hs)
    simp [answering, this]
  rw [this] at hx
  exact hn hx

/-- Either few runs are accepted, or there are two accepted runs with one question and different answers to it. -/
theorem attack {E : Type} [AddCommGroup E] [DecidableEq E] {L : Type} [StmtOps E L] {env : Env E} {σ : Store} {t : Tree L}
    {k β : Nat} (near : Bytes → Bytes → Prop) {S : (Bytes → Bytes) → Finset Bytes} {out : (Bytes → Bytes) → NIZK E × String} (hA : Attacker k S out)
    (hQ : ∀ H x, asked env σ t (out (oracle env.sha Q Ans H)).1 (out (oracle env.sha Q Ans H)).2 = .ok x → x ∈ Q)
    (hβ : ∀ b ∈ Ans, Nat.card {a // a ∈ Ans ∧ near a b} ≤ β)
    (h : ∀ H, ∀ x ∈ Q, ∀ a ∈ Ans, ∀ f f', f = oracle env.sha Q Ans H → f' = answering f x a →
      verify (rehash env f) σ t (out f).1 (out f).2 = .ok true → verify (rehash env f') σ t (out f').1 (out f').2 = .ok true →
      asked env σ t (out f).1 (out f).2 = .ok x → asked env σ t (out f').1 (out f').2 = .ok x →
      near (f x) a) :
    Ans.card * accepted env Q Ans σ t out ≤ (k + 1) * β * Ans.card ^ Q.card := by
  classical
  let W : Table Q Ans → Prop := fun H => verify (rehash env (oracle env.sha Q Ans H)) σ t
    (out (oracle env.sha Q Ans H)).1 (out (oracle env.sha Q Ans H)).2 = .ok true
  have hex : ∀ H, W H → ∃ x, asked env σ t (out (oracle env.sha Q Ans H)).1 (out (oracle env.sha Q Ans H)).2 = .ok x := by
    intro H hW
    obtain ⟨_, _, _, x, _, _, _, _, _, hx, _⟩ := verify_asked hW
    exact ⟨x, hx⟩
  by_cases hne : Nonempty {H // W H}
  swap
  · have : accepted env Q Ans σ t out = 0 := by
      rw [not_nonempty_iff] at hne
      exact Nat.card_of_isEmpty (α := {H // W H})
    rw [this]; simp
  obtain ⟨H0, hW0⟩ := hne
  obtain ⟨x0, hx0⟩ := hex H0 hW0
  let final : Table Q Ans → {x // x ∈ Q} := fun H =>
    if hx : ∃ x, asked env σ t (out (oracle env.sha Q Ans H)).1 (out (oracle env.sha Q Ans H)).2 = .ok x
    then ⟨hx.choose, hQ H _ hx.choose_spec⟩ else ⟨x0, hQ _ _ hx0⟩
  have hfin : ∀ H x, asked env σ t (out (oracle env.sha Q Ans H)).1 (out (oracle env.sha Q Ans H)).2 = .ok x → (final H).1 = x := by
    intro H x hx
    have he : ∃ x, asked env σ t (out (oracle env.sha Q Ans H)).1 (out (oracle env.sha Q Ans H)).2 = .ok x := ⟨x, hx⟩
    simp only [final, dif_pos he]
    exact Except.ok.inj (he.choose_spec.symm.trans hx)
  let T : (Bytes → Bytes) → Finset Bytes := fun f => match asked env σ t (out f).1 (out f).2 with
    | .ok x => insert x (S f)
    | .error _ => S f
  have hT : ∀ f g, (∀ s ∈ T f, g s = f s) → T g = T f := by
    intro f g hs
    have hs' : ∀ s ∈ S f, g s = f s := by
      intro s hm
      refine hs s ?_
      simp only [T]
      split
      · exact Finset.mem_insert_of_mem hm
      · exact hm
    obtain ⟨e1, e2⟩ := hA.asked f g hs'
    simp only [T, e1, e2]
  have hc : Nat.card (Table Q Ans) = Ans.card ^ Q.card := by simp [Table, Nat.card_eq_fintype_card]
  rw [← hc]
  refine fork_all (W := W) final (fun H => T (oracle env.sha Q Ans H)) ?_ ?_ (fun a b => near a.1 b.1) ?_ ?_ ?_
  · intro H
    simp only [T]
    split
    · exact (Finset.card_insert_le _ _).trans (Nat.add_le_add_right (hA.few _) 1)
    · exact (hA.few _).trans (Nat.le_succ _)
  · intro H hW
    obtain ⟨x, hx⟩ := hex H hW
    rw [hfin H x hx]
    simp only [T, hx]
    exact Finset.mem_insert_self _ _
  · intro b
    rw [Nat.card_congr (Equiv.subtypeSubtypeEquivSubtypeInter (fun a => a ∈ Ans) fun a => near a b.1)]
    exact hβ _ b.2
  · intro H x a hx
    exact asked_anyway hT H x a hx
  · intro H a hW hW' hf
    obtain ⟨x, hx⟩ := hex H hW
    obtain ⟨x', hx'⟩ := hex _ hW'
    have e1 := hfin H x hx
    have e2 := hfin _ x' hx'
    rw [hf, e1] at e2
    subst e2
    have e3 : oracle env.sha Q Ans (upd H (final H) a) = answering (oracle env.sha Q Ans H) x a.1 := by
      rw [← answering_oracle, e1]
    have := h H x (e1 ▸ (final H).2) a.1 a.2 _ _ rfl rfl hW (by rw [← e3]; exact hW') hx (by rw [← e3]; exact hx')
    rw [← e1] at this
    simpa [oracle] using this

/-- Answers near one of two kinds. -/
theorem near_or {P R : Bytes → Prop} {β γ : Nat} (h : Nat.card {a // a ∈ Ans ∧ P a} ≤ β) (h' : Nat.card {a // a ∈ Ans ∧ R a} ≤ γ) :
    Nat.card {a // a ∈ Ans ∧ (P a ∨ R a)} ≤ β + γ := by
  classical
  have e : ∀ P : Bytes → Prop, Nat.card {a // a ∈ Ans ∧ P a} = (Ans.filter P).card := by
    intro P
    rw [← Nat.card_eq_finsetCard]
    exact Nat.card_congr (Equiv.subtypeEquivRight fun a => by simp)
  rw [e] at h h' ⊢
  refine (Finset.card_le_card (t := Ans.filter P ∪ Ans.filter R) fun a ha => ?_).trans
    ((Finset.card_union_le _ _).trans (Nat.add_le_add h h'))
  simp only [Finset.mem_filter, Finset.mem_union] at ha ⊢
  exact ha.2.elim (fun h => .inl ⟨ha.1, h⟩) fun h => .inr ⟨ha.1, h⟩

end Zksk.Oracle
