import Verif.Lemmas.Chance
import Verif.Lemmas.Commit

/-! How often random numbers satisfy a linear equation. -/

set_option linter.unusedSectionVars false

namespace Zksk.Chance

open Spec Peer

variable {E : Type} [AddCommGroup E] [DecidableEq E]

/-- Numbers of one block of length `q` have different multiples. -/
theorem mod_apart {q o a a' : Nat} (hqo : q ∣ o) {b : E} (hb : ∀ k : Nat, 0 < k → k < q → k • b ≠ 0) (hq : 0 < q)
    (hd : a / q = a' / q) (he : (((a % o : Nat) : Int) • b) = ((a' % o : Nat) : Int) • b) : a = a' := by
  have key : ∀ a a' : Nat, a ≤ a' → a / q = a' / q → (((a % o : Nat) : Int) • b) = ((a' % o : Nat) : Int) • b →
      a = a' := by
    intro a a' hle hd he
    by_contra hne
    obtain ⟨m, rfl⟩ := hqo
    have h1 : a / (q * m) = a' / (q * m) := by rw [← Nat.div_div_eq_div_mul, ← Nat.div_div_eq_div_mul, hd]
    have h2 := Nat.div_add_mod a (q * m)
    have h3 := Nat.div_add_mod a' (q * m)
    rw [h1] at h2
    have h4 := Nat.div_add_mod a q
    have h5 := Nat.div_add_mod a' q
    rw [hd] at h4
    have h6 := Nat.mod_lt a hq
    have h7 := Nat.mod_lt a' hq
    refine hb (a' - a) (by omega) (by omega) ?_
    have h8 : a' % (q * m) = a % (q * m) + (a' - a) := by omega
    rw [h8, Nat.cast_add, add_smul] at he
    have := left_eq_add.mp he
    rwa [natCast_zsmul] at this
  rcases Nat.le_total a a' with h | h
  · exact key a a' h hd he
  · exact (key a' a h hd.symm he.symm).symm

/-- If a condition on `n` numbers determines a multiple of one of them, it holds in at most one of `q` cases. -/
theorem card_line {M q n o : Nat} (hq : 0 < q) (hqo : q ∣ o) (hqM : q ∣ M) {b : E}
    (hb : ∀ k : Nat, 0 < k → k < q → k • b ≠ 0) (T : (Fin n → Fin M) → Prop) (i : Fin n)
    (h : ∀ y y', T y → T y' → (∀ j, j ≠ i → y j = y' j) →
      ((((y i).val % o : Nat) : Int) • b) = (((y' i).val % o : Nat) : Int) • b) :
    q * Nat.card {y // T y} ≤ M ^ n := by
  have hlt : ∀ (a : Fin M) (j : Fin q), q * (a.val / q) + j.val < M := by
    intro a j
    obtain ⟨m, rfl⟩ := hqM
    have h1 : a.val / q < m := Nat.div_lt_of_lt_mul a.2
    have h2 : q * (a.val / q + 1) ≤ q * m := Nat.mul_le_mul_left _ h1
    have h3 := j.2
    rw [Nat.mul_add] at h2
    omega
  let g : Fin q × {y : Fin n → Fin M // T y} → (Fin n → Fin M) := fun x =>
    Function.update x.2.1 i ⟨q * ((x.2.1 i).val / q) + x.1.val, hlt _ _⟩
  have hg : Function.Injective g := by
    rintro ⟨j, y, hy⟩ ⟨j', y', hy'⟩ he
    have h1 : ∀ k, k ≠ i → y k = y' k := by
      intro k hk
      have := congrFun he k
      simpa [g, Function.update_of_ne hk] using this
    have h2 := congrFun he i
    simp only [g, Function.update_self, Fin.mk.injEq] at h2
    have h3 : (y i).val / q = (y' i).val / q := by
      have h4 := congrArg (· / q) h2
      simp only [Nat.mul_add_div hq, Nat.div_eq_of_lt j.2, Nat.div_eq_of_lt j'.2, Nat.add_zero] at h4
      exact h4
    have h5 : j = j' := by apply Fin.ext; rw [h3] at h2; omega
    have h6 : y i = y' i := Fin.ext (mod_apart hqo hb hq h3 (h y y' hy hy' h1))
    have h7 : y = y' := by
      funext k
      by_cases hk : k = i
      · rw [hk, h6]
      · exact h1 k hk
    subst h5; subst h7; rfl
  have := Nat.card_le_card_of_injective g hg
  simpa using this

/-- The commitment of a representation for given randomizers. -/
def lin (σ : Store) (D : Dict Int) (s : DLRep E) : E :=
  ((s.secretVars.zip s.bases).map fun e => Dict.fn σ 0 D (σ.key e.1) • e.2.val).sum

/-- The secret `x` with the base `b` is in the representation, and no other secret of it has the name of `x`. -/
def Free (q : Nat) (name : Sec → String) (s : DLRep E) (x : Sec) (b : Pt E) : Prop :=
  ∃ i : Nat, s.secretVars[i]? = some x ∧ s.bases[i]? = some b ∧ (∀ (j : Nat) y, s.secretVars[j]? = some y → name y = name x → j = i) ∧
    ∀ k : Nat, 0 < k → k < q → k • b.val ≠ 0

theorem sum_apart {f f' : Key → Int} {κ : Key} {σ : Store} {b : Pt E} (l1 l2 : List (Sec × Pt E)) (x : Sec)
    (h1 : ∀ e ∈ l1, σ.key e.1 ≠ κ) (h2 : ∀ e ∈ l2, σ.key e.1 ≠ κ) (hx : σ.key x = κ) (hf : ∀ k, k ≠ κ → f k = f' k)
    (he : ((l1 ++ (x, b) :: l2).map fun e => f (σ.key e.1) • e.2.val).sum =
      ((l1 ++ (x, b) :: l2).map fun e => f' (σ.key e.1) • e.2.val).sum) : f κ • b.val = f' κ • b.val := by
  simp only [List.map_append, List.map_cons, List.sum_append, List.sum_cons, hx] at he
  have e1 : (l1.map fun e => f (σ.key e.1) • e.2.val) = l1.map fun e => f' (σ.key e.1) • e.2.val :=
    List.map_congr_left fun e he => by rw [hf _ (h1 e he)]
  have e2 : (l2.map fun e => f (σ.key e.1) • e.2.val) = l2.map fun e => f' (σ.key e.1) • e.2.val :=
    List.map_congr_left fun e he => by rw [hf _ (h2 e he)]
  rw [e1, e2] at he
  exact add_right_cancel (add_left_cancel he)

theorem lin_apart {q : Nat} {σ : Store} {s : DLRep E} {x : Sec} {b : Pt E} (hx : Free q σ.name s x b) {D D' : Dict Int}
    (hf : ∀ k, k ≠ σ.key x → Dict.fn σ 0 D k = Dict.fn σ 0 D' k) (he : lin σ D s = lin σ D' s) :
    Dict.fn σ 0 D (σ.key x) • b.val = Dict.fn σ 0 D' (σ.key x) • b.val := by
  obtain ⟨i, h1, h2, h3, _⟩ := hx
  have hz : (s.secretVars.zip s.bases)[i]? = some (x, b) := by simp [List.getElem?_zip_eq_some, h1, h2]
  obtain ⟨hi, hz'⟩ := List.getElem?_eq_some_iff.mp hz
  have hs : s.secretVars.zip s.bases = (s.secretVars.zip s.bases).take i ++ (x, b) :: (s.secretVars.zip s.bases).drop (i + 1) := by
    rw [← hz', List.getElem_cons_drop, List.take_append_drop]
  have hne : ∀ (j : Nat) e, (s.secretVars.zip s.bases)[j]? = some e → j ≠ i → σ.key e.1 ≠ σ.key x := by
    intro j e hj hji hk
    obtain ⟨y, c⟩ := e
    rw [List.getElem?_zip_eq_some] at hj
    exact hji (h3 j y hj.1 (congrArg Prod.fst hk))
  unfold lin at he
  rw [hs] at he
  refine sum_apart _ _ x (fun e he => ?_) (fun e he => ?_) rfl hf he
  · obtain ⟨j, hj, rfl⟩ := List.mem_iff_getElem.mp he
    rw [List.length_take] at hj
    refine hne j _ ?_ (by omega)
    rw [List.getElem_take, List.getElem?_eq_getElem]
  · obtain ⟨j, hj, rfl⟩ := List.mem_iff_getElem.mp he
    rw [List.length_drop] at hj
    refine hne (i + 1 + j) _ ?_ (by omega)
    rw [List.getElem_drop, List.getElem?_eq_getElem]

/-- The numbers drawn from a block. -/
theorem draws_tape : ∀ (D0 : Dict Nat) {M : Nat} (y : Fin D0.length → Fin M) (r : Nat → Nat),
    draws D0 (tape y r) = D0.zipWith (fun e (a : Fin M) => (e.1, (((a.val % e.2 : Nat) : Int)))) (List.ofFn y)
  | [], _, _, _ => rfl
  | (u, o) :: D0, M, y, r => by
    have e : tape y r = scons (y 0) (tape (Fin.tail y) r) := tape_tail (n := D0.length) y r
    rw [e]
    have := draws_tape D0 (Fin.tail y) r
    simp only [draws, scons, List.length_cons, List.ofFn_succ, List.zipWith_cons_cons, this]
    rfl

theorem fn_zip (σ : Store) (D0 : Dict Nat) (hu : D0.Uniq σ) {M : Nat} (l : List (Fin M)) (i : Nat) (u : Sec) (o : Nat)
    (a : Fin M) (hi : D0[i]? = some (u, o)) (ha : l[i]? = some a) :
    Dict.fn σ 0 (D0.zipWith (fun e (a : Fin M) => (e.1, (((a.val % e.2 : Nat) : Int)))) l) (σ.key u) =
      ((a.val % o : Nat) : Int) := by
  induction D0 generalizing l i with
  | nil => simp at hi
  | cons e D0 ih =>
    obtain ⟨v, p⟩ := e
    cases l with
    | nil => simp at ha
    | cons c l =>
      cases i with
      | zero =>
        simp only [List.getElem?_cons_zero, Option.some.injEq, Prod.mk.injEq] at hi ha
        obtain ⟨rfl, rfl⟩ := hi
        subst ha
        simp [Dict.fn]
      | succ i =>
        simp only [List.getElem?_cons_succ] at hi ha
        have hne : σ.key v ≠ σ.key u := by
          intro hk
          have h1 : Dict.get? σ D0 v = none := hu.1
          have : ∀ (D : Dict Nat) (i : Nat), D[i]? = some (u, o) → Dict.get? σ D v ≠ none := by
            intro D
            induction D with
            | nil => intro i h; simp at h
            | cons e D ih =>
              intro i h
              obtain ⟨z, m⟩ := e
              simp only [Dict.get?]
              by_cases hz : σ.key z = σ.key v
              · simp [hz]
              · rw [if_neg hz]
                cases i with
                | zero =>
                  simp only [List.getElem?_cons_zero, Option.some.injEq, Prod.mk.injEq] at h
                  obtain ⟨rfl, rfl⟩ := h
                  exact absurd hk.symm hz
                | succ i => exact ih i (by simpa using h)
          exact this D0 i hi h1
        have := ih hu.2 l i hi ha
        simp only [Dict.fn, List.zipWith_cons_cons, List.find?_cons] at this ⊢
        rw [show decide (σ.key v = σ.key u) = false by simpa using hne]
        exact this

theorem fn_zip_other (σ : Store) (D0 : Dict Nat) {M : Nat} (l l' : List (Fin M)) (κ : Key) (hl : l.length = l'.length)
    (h : ∀ (i : Nat) u o, D0[i]? = some (u, o) → σ.key u = κ → l[i]? = l'[i]?) :
    Dict.fn σ 0 (D0.zipWith (fun e (a : Fin M) => (e.1, (((a.val % e.2 : Nat) : Int)))) l) κ =
      Dict.fn σ 0 (D0.zipWith (fun e (a : Fin M) => (e.1, (((a.val % e.2 : Nat) : Int)))) l') κ := by
  induction D0 generalizing l l' with
  | nil => rfl
  | cons e D0 ih =>
    obtain ⟨v, p⟩ := e
    cases l with
    | nil =>
      cases l' with
      | nil => rfl
      | cons c' l' => simp at hl
    | cons c l =>
      cases l' with
      | nil => simp at hl
      | cons c' l' =>
        simp only [Dict.fn, List.zipWith_cons_cons, List.find?_cons]
        by_cases hk : σ.key v = κ
        · have := h 0 v p rfl hk
          simp only [List.getElem?_cons_zero, Option.some.injEq] at this
          subst this
          simp [hk]
        · rw [show decide (σ.key v = κ) = false by simpa using hk]
          exact ih l l' (by simpa using hl) fun i u o hi => h (i + 1) u o hi

/-- Drawing a dictionary that covers the secrets of a representation determines its commitment in at most one of `q`
cases. -/
theorem draws_seldom {M q : Nat} (hM : M ≠ 0) (hq : 0 < q) {σ : Store} {D0 : Dict Nat} (hu : D0.Uniq σ)
    (ho : ∀ e ∈ D0, q ∣ e.2 ∧ e.2 ∣ M) {s : DLRep E} {x : Sec} {b : Pt E} (hx : Free q σ.name s x b)
    (hc : (Dict.get? σ D0 x).isSome) (v : E) :
    Seldom M q (fun D => lin σ D s = v) (starting σ (Tree.drawDict D0)) := by
  have hidx : ∀ D : Dict Nat, (Dict.get? σ D x).isSome → ∃ (i : Fin D.length), σ.key (List.get D i).1 = σ.key x := by
    intro D
    induction D with
    | nil => intro h; simp [Dict.get?] at h
    | cons e D ih =>
      intro h
      obtain ⟨u, o⟩ := e
      by_cases hk : σ.key u = σ.key x
      · exact ⟨⟨0, by simp⟩, hk⟩
      · simp only [Dict.get?, if_neg hk] at h
        obtain ⟨i, hi⟩ := ih h
        exact ⟨i.succ, hi⟩
  obtain ⟨i, hi⟩ := hidx D0 hc
  have hqM : q ∣ M := Dvd.dvd.trans (ho _ (List.get_mem D0 i)).1 (ho _ (List.get_mem D0 i)).2
  have hnz : ∀ e ∈ D0, e.2 ≠ 0 := fun e he h0 => by
    have := (ho e he).2
    rw [h0, Nat.zero_dvd] at this
    exact hM this
  have hi' : D0[i.val]? = some ((List.get D0 i).1, (List.get D0 i).2) := by
    rw [List.getElem?_eq_getElem i.2]; rfl
  have hfn : ∀ y : Fin D0.length → Fin M, Dict.fn σ 0
      (D0.zipWith (fun e (a : Fin M) => (e.1, (((a.val % e.2 : Nat) : Int)))) (List.ofFn y)) (σ.key x) =
      (((y i).val % (List.get D0 i).2 : Nat) : Int) := by
    intro y
    rw [← hi]
    exact fn_zip σ D0 hu _ i _ _ (y i) hi' (by simp)
  refine .block D0.length (fun y => lin σ (D0.zipWith (fun e (a : Fin M) => (e.1, (((a.val % e.2 : Nat) : Int))))
    (List.ofFn y)) s = v) ?_ ?_
  · obtain ⟨_, _, _, _, hb⟩ := id hx
    refine card_line hq (ho _ (List.get_mem D0 i)).1 hqM hb _ i fun y y' hy hy' hyy => ?_
    rw [← hfn y, ← hfn y']
    refine lin_apart hx (fun κ hκ => ?_) (hy.trans hy'.symm)
    refine fn_zip_other σ D0 _ _ κ (by simp) fun j u o hj hjk => ?_
    have hjl : j < D0.length := (List.getElem?_eq_some_iff.mp hj).1
    have : (⟨j, hjl⟩ : Fin D0.length) ≠ i := by
      rintro rfl
      rw [hj] at hi'
      simp only [Option.some.injEq, Prod.mk.injEq] at hi'
      rw [← hi'.1, hjk] at hi
      exact hκ hi
    simp [hjl, hyy _ this]
  · intro y hy r D w h
    unfold starting at h
    rw [drawDict_eq D0 _ hnz] at h
    simp only [Except.ok.injEq, Prod.mk.injEq, draws_tape] at h
    rw [← h.1]
    exact hy

end Zksk.Chance
