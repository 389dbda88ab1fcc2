import Verif.Model.Prover

/-! Inversion lemmas for `Except` and `PM`, and induction principles for trees. -/

namespace Zksk

theorem bind_ok_iff {α β : Type} {x : Except Err α} {f : α → Except Err β} {b : β} :
    (x >>= f) = .ok b ↔ ∃ a, x = .ok a ∧ f a = .ok b := by
  cases x with
  | error e => simp [bind, Except.bind]
  | ok a => simp [bind, Except.bind]

theorem bind_ok {α β : Type} (a : α) (f : α → Except Err β) :
    ((Except.ok a : Except Err α) >>= f) = f a := rfl

theorem bind_err {α β : Type} (e : Err) (f : α → Except Err β) :
    ((Except.error e : Except Err α) >>= f) = .error e := rfl

theorem map_ok_iff {α β : Type} {x : Except Err α} {f : α → β} {b : β} :
    (Except.map f x) = .ok b ↔ ∃ a, x = .ok a ∧ f a = b := by
  cases x with
  | error e => simp [Except.map]
  | ok a => simp [Except.map]

theorem pm_bind {α β : Type} {x : PM α} {f : α → PM β} {w : World} {r : β × World} :
    (x >>= f) w = .ok r ↔ ∃ a w1, x w = .ok (a, w1) ∧ f a w1 = .ok r := by
  show (StateT.bind x f w) = _ ↔ _
  unfold StateT.bind
  rw [bind_ok_iff]
  constructor
  · rintro ⟨⟨a, w1⟩, h1, h2⟩; exact ⟨a, w1, h1, h2⟩
  · rintro ⟨a, w1, h1, h2⟩; exact ⟨(a, w1), h1, h2⟩

/-- Running a bind whose first action succeeds. -/
theorem pm_bind_eq {α β : Type} {x : PM α} {f : α → PM β} {w w1 : World} {a : α}
    (h : x w = .ok (a, w1)) : (x >>= f) w = f a w1 := by
  show (StateT.bind x f w) = _
  unfold StateT.bind
  rw [h]; rfl

theorem pm_pure {α : Type} {a : α} {w : World} : (pure a : PM α) w = .ok (a, w) := rfl

theorem pm_pure_iff {α : Type} {a : α} {w : World} {r : α × World} :
    (pure a : PM α) w = .ok r ↔ (a, w) = r := by
  rw [pm_pure]; simp

theorem liftE_iff {α : Type} {x : Except Err α} {w : World} {r : α × World} :
    liftE x w = .ok r ↔ x = .ok r.1 ∧ w = r.2 := by
  unfold liftE
  cases x with
  | error e => simp
  | ok a =>
    simp only [Except.ok.injEq]
    constructor
    · rintro rfl; simp
    · rintro ⟨h1, h2⟩; cases r; simp_all

theorem liftE_ok {α : Type} {a : α} {w : World} : liftE (.ok a) w = .ok (a, w) := rfl

theorem pm_getStore_bind {β : Type} {f : Store → PM β} {w : World} :
    (getStore >>= f) w = f w.store w := rfl

theorem pm_liftE_bind {α β : Type} {a : α} {f : α → PM β} {w : World} :
    (liftE (.ok a) >>= f) w = f a w := rfl

theorem pm_liftE_bind_iff {α β : Type} {x : Except Err α} {f : α → PM β} {w : World} {r : β × World} :
    (liftE x >>= f) w = .ok r ↔ ∃ a, x = .ok a ∧ f a w = .ok r := by
  cases x with
  | ok a => rw [pm_liftE_bind]; simp
  | error e =>
    simp only [reduceCtorEq, false_and, exists_false, iff_false]
    intro h
    obtain ⟨a, w1, h1, _⟩ := pm_bind.mp h
    rw [liftE_iff] at h1; cases h1.1

theorem pm_setStore_bind {β : Type} {σ : Store} {f : Unit → PM β} {w : World} :
    (setStore σ >>= f) w = f () { w with store := σ } := rfl

theorem getStore_iff {w : World} {r : Store × World} :
    getStore w = .ok r ↔ (w.store, w) = r := by
  unfold getStore; simp

theorem raise_ne {α : Type} {e : Err} {w : World} {r : α × World} :
    (raise e : PM α) w = .ok r ↔ False := by
  unfold raise; simp

theorem setStore_iff {σ : Store} {w : World} {r : Unit × World} :
    setStore σ w = .ok r ↔ ((), { w with store := σ }) = r := by
  unfold setStore; simp

theorem draw_ok {m : Nat} {w w' : World} {k : Int} (h : draw m w = .ok (k, w')) :
    0 < m ∧ 0 ≤ k ∧ k < m ∧ w'.store = w.store := by
  unfold draw at h
  by_cases hm : m = 0
  · simp [hm] at h
  · simp only [hm, if_false, Except.ok.injEq, Prod.mk.injEq] at h
    obtain ⟨h1, h2⟩ := h
    have : w.rng 0 % m < m := Nat.mod_lt _ (Nat.pos_of_ne_zero hm)
    subst h1; subst h2
    refine ⟨Nat.pos_of_ne_zero hm, ?_, ?_, rfl⟩
    · exact_mod_cast Nat.zero_le _
    · exact_mod_cast this

/-- Induction on statement trees with the hypothesis for every subproof. -/
theorem Tree.ind {L : Type} {motive : Tree L → Prop}
    (leaf : ∀ l, motive (.leaf l))
    (and : ∀ s subs, (∀ t ∈ subs, motive t) → motive (.and s subs))
    (or : ∀ s subs, (∀ t ∈ subs, motive t) → motive (.or s subs)) : ∀ t, motive t := by
  intro t
  refine Tree.rec (motive_1 := motive) (motive_2 := fun ts => ∀ t ∈ ts, motive t)
    leaf and or ?_ ?_ t
  · intro t h; cases h
  · intro t ts ht hts x hx
    cases hx with
    | head => exact ht
    | tail _ h => exact hts x h

/-- Induction on prover trees. -/
theorem PTree.ind {E L P : Type} {motive : PTree E L P → Prop}
    (leaf : ∀ p, motive (.leaf p))
    (and : ∀ s subs, (∀ p ∈ subs, motive p) → motive (.and s subs))
    (or : ∀ s i stmts sub sims, motive sub → motive (.or s i stmts sub sims)) :
    ∀ p, motive p := by
  intro p
  refine PTree.rec (motive_1 := motive) (motive_2 := fun ts => ∀ t ∈ ts, motive t)
    leaf and or ?_ ?_ p
  · intro t h; cases h
  · intro t ts ht hts x hx
    cases hx with
    | head => exact ht
    | tail _ h => exact hts x h

end Zksk
