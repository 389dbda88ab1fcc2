import Verif.Lemmas.Progress2
import Verif.Props.Choice
import Mathlib.Data.List.Sort

/-! # C65: the clause of a disjunction that is proved is drawn uniformly -/

set_option linter.unusedSectionVars false

namespace Zksk.Props

open Spec

variable {E : Type} [AddCommGroup E] [DecidableEq E]

section
variable {L P : Type} [StmtOps E L] [ProverOps E L P]

variable (E) in
/-- `K` lists, in increasing order, the positions of the clauses that are not marked as simulated. -/
structure FreeClauses (subs : List (Tree L)) (K : List Nat) : Prop where
  sorted : K.Pairwise (· < ·)
  mem : ∀ i, i ∈ K ↔ ∃ t, subs[i]? = some t ∧ Tree.simulated (E := E) t = false

private theorem candidates_free : ∀ (ts : List (Tree L)) (i : Nat),
    (PTree.candidates (E := E) ts i).Pairwise (· < ·) ∧
    ∀ j, j ∈ PTree.candidates (E := E) ts i ↔
      i ≤ j ∧ ∃ t, ts[j - i]? = some t ∧ Tree.simulated (E := E) t = false
  | [], i => by simp [PTree.candidates]
  | t :: ts, i => by
    obtain ⟨h1, h2⟩ := candidates_free ts (i + 1)
    have h3 : ∀ j, i < j → (t :: ts)[j - i]? = ts[j - (i + 1)]? := by
      intro j hj
      have : j - i = (j - (i + 1)) + 1 := by omega
      rw [this]; simp
    simp only [PTree.candidates]
    split
    · rename_i hs
      refine ⟨h1, fun j => ?_⟩
      rw [h2]
      constructor
      · rintro ⟨h, u, hu⟩
        exact ⟨by omega, u, by rw [h3 j (by omega)]; exact hu⟩
      · rintro ⟨h, u, hu, hu'⟩
        rcases Nat.eq_or_lt_of_le h with rfl | h
        · simp only [Nat.sub_self, List.getElem?_cons_zero, Option.some.injEq] at hu
          rw [hu, hu'] at hs
          cases hs
        · exact ⟨h, u, by rw [← h3 j h]; exact hu, hu'⟩
    · rename_i hs
      refine ⟨List.pairwise_cons.mpr ⟨fun j hj => ((h2 j).mp hj).1, h1⟩, fun j => ?_⟩
      rw [List.mem_cons, h2]
      constructor
      · rintro (rfl | ⟨h, u, hu⟩)
        · exact ⟨le_refl _, t, by simp, by simpa using hs⟩
        · exact ⟨by omega, u, by rw [h3 j (by omega)]; exact hu⟩
      · rintro ⟨h, u, hu, hu'⟩
        rcases Nat.eq_or_lt_of_le h with rfl | h
        · exact .inl rfl
        · exact .inr ⟨h, u, by rw [← h3 j h]; exact hu, hu'⟩

private theorem candidates_eq {subs : List (Tree L)} {K : List Nat} (hK : FreeClauses E subs K) :
    PTree.candidates (E := E) subs 0 = K := by
  obtain ⟨h1, h2⟩ := candidates_free (E := E) subs 0
  refine List.Pairwise.eq_of_mem_iff h1 hK.sorted fun j => ?_
  rw [h2, hK.mem]
  simp

/-- **C65** The first random number the prover of a disjunction takes says which clause it tries first,
among those not marked as simulated: the one at position `r mod |K|`. If a prover results and that clause
did not decline, the prover proves that clause. Clauses of any kind. -/
theorem C65_first_drawn (subs : List (Tree L)) (K : List Nat) (d : Dict Int) (w w' : World)
    (p : PTree E L P) (t t' : Tree L) (i : Nat) (hK : FreeClauses E subs K)
    (h : PTree.getProver (.or false subs) d w = .ok ((some p, t'), w'))
    (hi : K[w.rng 0 % K.length]? = some i) (ht : subs[i]? = some t)
    (hn : ∀ t1 w1, PTree.getProver t d ⟨updateSecretValues w.store d, fun n => w.rng (n + 1)⟩ ≠
      .ok (((none : Option (PTree E L P)), t1), w1)) :
    ∃ stmts sub sims, p = .or false i stmts sub sims := by
  have hlen : K.length ≠ 0 := by
    intro h0
    rw [List.length_eq_zero_iff.mp h0] at hi
    simp at hi
  simp only [PTree.getProver, pm_getStore_bind, pm_setStore_bind, Bool.false_eq_true, if_false,
    candidates_eq hK] at h
  obtain ⟨⟨r, subs'⟩, w1, h1, h⟩ := pm_bind.mp h
  have hch : PTree.choice K { w with store := updateSecretValues w.store d } =
      .ok (i, ⟨updateSecretValues w.store d, fun n => w.rng (n + 1)⟩) := by
    unfold PTree.choice
    have hdr : draw K.length { w with store := updateSecretValues w.store d } =
        .ok (((w.rng 0 % K.length : Nat) : Int), ⟨updateSecretValues w.store d, fun n => w.rng (n + 1)⟩) := by
      simp only [draw, hlen, if_false]
    rw [pm_bind_eq hdr]
    simp only [Int.toNat_natCast, hi]
    rfl
  generalize hl : K.length = m at h1
  cases m with
  | zero => exact (hlen hl).elim
  | succ n =>
    simp only [PTree.orLoop] at h1
    rw [if_neg (by intro h0; simp only [List.isEmpty_iff] at h0; rw [h0] at hl; cases hl),
      pm_bind_eq hch] at h1
    rw [show (PTree.getProverActs subs d : List (PM (Option (PTree E L P) × Tree L)))[i]? =
      some (PTree.getProver t d) by rw [acts_get, ht]; rfl] at h1
    simp only at h1
    obtain ⟨⟨q?, t1⟩, w2, h2, h1⟩ := pm_bind.mp h1
    cases q? with
    | none => exact (hn t1 w2 h2).elim
    | some q =>
      simp only at h1
      rw [pm_pure_iff, Prod.mk.injEq, Prod.mk.injEq] at h1
      rw [← h1.1.1] at h
      simp only at h
      obtain ⟨⟨stmts, sims⟩, w3, _, h⟩ := pm_bind.mp h
      rw [pm_pure_iff, Prod.mk.injEq, Prod.mk.injEq] at h
      exact ⟨stmts, q, sims, (Option.some.inj h.1.1).symm⟩

end

/-- **C65** When the values given satisfy every clause not marked as simulated, `get_prover()` of the
disjunction succeeds, and the clause proved is the one at position `r mod |K|` of the list `K` of these
clauses, `r` the first random number: which clause is proved depends on nothing else, in particular not on
the witness. -/
theorem C65_satisfied (subs : List (Core E)) (K : List Nat) (d : Dict Int) (w : World) (X : Key → Int)
    (hK : FreeClauses E subs K) (hs : Solid (.or false subs)) (ht : Torsion (.or false subs))
    (hd : d.Uniq (heapFor w.store d (.or false subs)))
    (hX : Satisfied (heapFor w.store d (.or false subs)) d X (.or false subs)) :
    ∃ i stmts sub sims t' w', K[w.rng 0 % K.length]? = some i ∧
      PTree.getProver (.or false subs) d w =
        .ok ((some (.or false i stmts sub sims : CoreProver E), t'), w') := by
  obtain ⟨p, t', w1, h, _⟩ := getProver_satisfied hs ht hd hX
  have hlen : 0 < K.length := by
    cases hX with
    | any _ hex hall =>
    obtain ⟨t, hm, hu⟩ := hex
    obtain ⟨j, hj⟩ := List.mem_iff_getElem?.mp hm
    have : j ∈ K := (hK.mem j).mpr ⟨t, hj, by cases t <;> exact hu⟩
    exact List.length_pos_of_mem this
  have hi := List.getElem?_eq_getElem (Nat.mod_lt (w.rng 0) hlen)
  obtain ⟨i, hi⟩ : ∃ i, K[w.rng 0 % K.length]? = some i := ⟨_, hi⟩
  obtain ⟨t, hti, hun⟩ := (hK.mem i).mp (List.mem_of_getElem? hi)
  have hm := List.mem_of_getElem? hti
  have hheap : updateSecretValues w.store d = heapFor w.store d (.or false subs) :=
    (heapFor_eq _ _ (by simp)).symm
  obtain ⟨stmts, sub, sims, rfl⟩ := C65_first_drawn subs K d w w1 p t t' i hK h hi hti (by
    intro t1 w2 h2
    have hsub : Satisfied (heapFor w.store d (.or false subs)) d X t := by
      cases hX with
      | any _ _ hall => exact hall t hm (unmarked_of_simulated hun)
    obtain ⟨q, t2, w3, h3⟩ := getProver_progress (σ := heapFor w.store d (.or false subs)) (X := X)
      (by rw [← hheap]; exact updateSecretValues_idem _ _) hd t
      (by
        have := good_both _ hs ht
        cases this with
        | or _ _ _ hg => exact hg t hm) hsub
      ⟨updateSecretValues w.store d, fun n => w.rng (n + 1)⟩ hheap
    rw [h3] at h2
    cases h2)
  exact ⟨i, stmts, sub, sims, t', w1, hi, h⟩

/-- **C65** So the choice is uniform over the clauses not marked as simulated: of the `n·|K|` values below
`n·|K|` of the first random number exactly `n` make the prover prove clause `i`, for every such clause. -/
theorem C65_uniform (subs : List (Core E)) (K : List Nat) (d : Dict Int) (σ : Store) (rng : Nat → Nat)
    (X : Key → Int) (hK : FreeClauses E subs K) (hs : Solid (.or false subs)) (ht : Torsion (.or false subs))
    (hd : d.Uniq (heapFor σ d (.or false subs)))
    (hX : Satisfied (heapFor σ d (.or false subs)) d X (.or false subs)) (n i : Nat) (hi : i ∈ K) :
    Nat.card {r : Fin (n * K.length) // ∃ stmts sub sims t' w',
      PTree.getProver (.or false subs) d ⟨σ, fun j => if j = 0 then r else rng j⟩ =
        .ok ((some (.or false i stmts sub sims : CoreProver E), t'), w')} = n := by
  have hlen : 0 < K.length := List.length_pos_of_mem hi
  have hnd : K.Nodup := hK.sorted.imp fun h => Nat.ne_of_lt h
  have hkey : ∀ r : Fin (n * K.length), (∃ stmts sub sims t' w',
      PTree.getProver (.or false subs) d ⟨σ, fun j => if j = 0 then r else rng j⟩ =
        .ok ((some (.or false i stmts sub sims : CoreProver E), t'), w')) ↔
      (r : Nat) % K.length = K.idxOf i := by
    intro r
    obtain ⟨i', stmts, sub, sims, t', w', h1, h2⟩ := C65_satisfied subs K d
      ⟨σ, fun j => if j = 0 then r else rng j⟩ X hK hs ht hd hX
    simp only [if_true] at h1
    obtain ⟨hlt, h1⟩ := List.getElem?_eq_some_iff.mp h1
    constructor
    · rintro ⟨_, _, _, _, _, h⟩
      rw [h2] at h
      cases h
      rw [← h1, hnd.idxOf_getElem]
    · intro h
      have : i' = i := by
        rw [← h1]
        simp only [h]
        exact List.getElem_idxOf _
      subst this
      exact ⟨stmts, sub, sims, t', w', h2⟩
  rw [Nat.card_congr (Equiv.subtypeEquivRight hkey)]
  have hlt : K.idxOf i < K.length := List.idxOf_lt_length_iff.mpr hi
  have e : {r : Fin (n * K.length) // (r : Nat) % K.length = K.idxOf i} ≃ Fin n :=
    { toFun := fun r => ⟨r.1 / K.length, Nat.div_lt_of_lt_mul (Nat.mul_comm n K.length ▸ r.1.2 : (r.1 : Nat) < K.length * n)⟩
      invFun := fun k => ⟨⟨k * K.length + K.idxOf i, by
          calc k * K.length + K.idxOf i < (k + 1) * K.length := by rw [Nat.succ_mul]; omega
            _ ≤ n * K.length := Nat.mul_le_mul_right _ k.2⟩, by
          show (k * K.length + K.idxOf i) % K.length = K.idxOf i
          rw [Nat.mul_add_mod_of_lt hlt]⟩
      left_inv := by
        rintro ⟨⟨r, hr⟩, h⟩
        simp only [Subtype.mk.injEq, Fin.mk.injEq]
        rw [← h, Nat.mul_comm]
        exact Nat.div_add_mod r _
      right_inv := by
        rintro ⟨k, hk⟩
        simp only [Fin.mk.injEq]
        rw [Nat.add_comm, Nat.add_mul_div_right _ _ hlen, Nat.div_eq_of_lt hlt, Nat.zero_add] }
  rw [Nat.card_congr e, Nat.card_fin]

/-- The disjunction of `6 = x0·3`, the same marked as simulated, and `5 = x2·3`. -/
def exClauses : List (Core (ZMod 7)) :=
  [.leaf Ex.rep2, .leaf { Ex.rep2 with simulated := true }, .leaf Ex.rep3]

/-- Half of the numbers below 10 lead to the third clause, the second one of those not marked. -/
example (rng : Nat → Nat) : Nat.card {r : Fin (5 * 2) // ∃ stmts sub sims t' w',
    PTree.getProver (.or false exClauses) exDict ⟨Ex.σ, fun j => if j = 0 then r else rng j⟩ =
      .ok ((some (.or false 2 stmts sub sims : CoreProver (ZMod 7)), t'), w')} = 5 := by
  have hheap : heapFor Ex.σ exDict (.or false exClauses) = Ex.σ := by
    simp only [heapFor, exDict, Ex.σ, Store.mk.injEq, true_and]
    funext x
    match x with
    | 0 => rfl
    | 1 => rfl
    | 2 => rfl
    | n + 3 => rfl
  refine C65_uniform exClauses [0, 2] exDict Ex.σ rng exVal ⟨by decide, ?_⟩ ?_ ?_ ?_ ?_ 5 2 (by decide)
  · intro i
    match i with
    | 0 => simp [exClauses, Tree.simulated, StmtOps.simulated, Ex.rep2]
    | 1 => simp [exClauses, Tree.simulated, StmtOps.simulated, Ex.rep2]
    | 2 => simp [exClauses, Tree.simulated, StmtOps.simulated, Ex.rep3]
    | n + 3 => simp [exClauses]
  · simp [exClauses, Solid, SolidL, Ex.rep2, Ex.rep3, Ex.P, Ex.G]
  · intro x b hx
    simp only [exClauses, terms, termsL, Ex.rep2, Ex.rep3, List.zip_cons_cons, List.zip_nil_right,
      List.cons_append, List.nil_append, List.append_nil, List.mem_cons, Prod.mk.injEq,
      List.not_mem_nil, or_false] at hx
    rcases hx with ⟨_, rfl⟩ | ⟨_, rfl⟩ | ⟨_, rfl⟩ <;> decide
  · rw [hheap]; simp only [exDict, Dict.Uniq]; decide
  · rw [hheap]
    refine .any _ ⟨.leaf Ex.rep3, by simp [exClauses], rfl⟩ fun t ht hu => ?_
    simp only [exClauses, List.mem_cons, List.not_mem_nil, or_false] at ht
    rcases ht with rfl | rfl | rfl
    · exact .rep _ (by decide) (.rep _ _ (by decide) (by decide))
    · cases hu
    · exact .rep _ (by decide) (.rep _ _ (by decide) (by decide))

end Zksk.Props
