import Verif.Lemmas.Wrong
import Verif.SpecSound

/-! Every true statement has an answer to every challenge, with all random values zero. -/

set_option linter.unusedSectionVars false

namespace Zksk

open Spec

variable {E : Type} [AddCommGroup E] [DecidableEq E]

theorem zeroL_eq : ∀ ts : List (Core E), zeroCommitments ts = ts.map zeroCommitment
  | [] => rfl
  | t :: ts => by simp only [zeroCommitments, List.map_cons, zeroL_eq ts]

theorem zero_sum (X : Sec → Int) (c : Int) : ∀ (vs : List Sec) (bs : List (Pt E)),
    (List.zipWith (fun w (b : Pt E) => w • b.val) (vs.map fun x => c * X x) bs).sum =
      c • (List.zipWith (fun x (b : Pt E) => X x • b.val) vs bs).sum
  | [], bs => by simp
  | _ :: _, [] => by simp
  | v :: vs, b :: bs => by
    simp only [List.map_cons, List.zipWith_cons_cons, List.sum_cons, zero_sum X c vs bs, smul_add, mul_smul]

theorem solidL_mem : ∀ {ts : List (Core E)}, SolidL ts → ∀ t ∈ ts, Solid t
  | _ :: _, h, t, ht => by
    rcases List.mem_cons.mp ht with rfl | ht
    · exact h.1
    · exact solidL_mem h.2 t ht

theorem sum_single (c : Int) : ∀ (n j : Nat), j < n →
    ((List.range n).map fun i => if i = j then c else 0).sum = c := by
  intro n
  induction n with
  | zero => intro j h; omega
  | succ n ih =>
    intro j h
    rw [List.range_succ, List.map_append, List.sum_append]
    simp only [List.map_cons, List.map_nil, List.sum_cons, List.sum_nil, add_zero]
    by_cases hj : n = j
    · subst hj
      simp only [if_true, add_eq_right]
      refine List.sum_eq_zero fun x hx => ?_
      obtain ⟨i, hi, rfl⟩ := List.mem_map.mp hx
      have := List.mem_range.mp hi
      rw [if_neg (by omega)]
    · rw [if_neg hj, ih j (by omega), add_zero]

theorem zero_run (σ : Store) : ∀ (t : Core E), Solid t → ∀ (c : Int) (X : Key → Int),
    (c = 0 ∨ Holds σ t X) →
    ∃ r, Agree σ t r (fun κ => .int (c * X κ)) ∧ Eqns t c r (zeroCommitment t) := by
  intro t
  induction t using Tree.ind with
  | leaf s =>
    intro hs c X h
    have hsum : c • (List.zipWith (fun x (b : Pt E) => X (σ.key x) • b.val) s.secretVars s.bases).sum -
        c • s.lhs.val = 0 := by
      rcases h with rfl | h
      · simp
      · cases h with
        | rep _ _ _ h => rw [← h, sub_self]
    refine ⟨.list ((s.secretVars.map fun x => c * X (σ.key x)).map .int), .rep _ _ _ ?_, ?_⟩
    · intro i x hx
      simp only [Val.index, List.getElem?_map, hx, Option.map_some]
    · simp only [zeroCommitment]
      rw [← hsum, ← zero_sum (fun x => X (σ.key x)) c]
      refine .rep s c _ _ _ rfl ?_ ?_ ?_
      · intro _; simp [hs.1]
      · rw [List.take_of_length_le (by simp [hs.1])]
      · intro b hb; exact hs.2.2.1 b (List.mem_of_mem_take hb)
  | and b subs ih =>
    intro hs c X h
    have : ∀ i : Nat, ∃ r : Val E, ∀ t, subs[i]? = some t → Agree σ t r (fun κ => .int (c * X κ)) ∧
        Eqns t c r (zeroCommitment t) := by
      intro i
      cases ht : subs[i]? with
      | none => exact ⟨.none, by simp⟩
      | some t =>
        have hm := List.mem_of_getElem? ht
        obtain ⟨r, hr⟩ := ih t hm (solidL_mem hs.2 t hm) c X (h.imp_right fun h => by
          cases h with
          | all _ _ _ h => exact h t hm)
        exact ⟨r, fun u hu => by cases hu; exact hr⟩
    choose r hr using this
    have hri : ∀ i, i < subs.length → (Val.list ((List.range subs.length).map r)).index i = .ok (r i) := by
      intro i hi
      simp [Val.index, hi]
    refine ⟨.list ((List.range subs.length).map r), .all b subs _ _ r hri fun i t ht => (hr i t ht).1, ?_⟩
    simp only [zeroCommitment]
    refine .all b subs c _ _ r (by simp [zeroL_eq]) hri fun i t com ht hcom => ?_
    rw [zeroL_eq, List.getElem?_map, ht] at hcom
    cases hcom
    exact (hr i t ht).2
  | or b subs ih =>
    intro hs c X h
    -- the index of the clause that gets the challenge
    obtain ⟨j, hj, X', hX'⟩ : ∃ j, j < subs.length ∧ ∃ X', ∀ t, subs[j]? = some t →
        (c = 0 ∨ Holds σ t X') := by
      rcases h with h | h
      · refine ⟨0, ?_, X, fun _ _ => .inl h⟩
        have := hs.1
        cases subs with
        | nil => exact (this rfl).elim
        | cons _ _ => simp
      · cases h with
        | any _ _ _ X' t ht h =>
          obtain ⟨j, hj⟩ := List.mem_iff_getElem?.mp ht
          exact ⟨j, (List.getElem?_eq_some_iff.mp hj).1, X', fun u hu => by
            rw [hj] at hu; cases hu; exact .inr h⟩
    have : ∀ i : Nat, ∃ r : Val E, ∀ t, subs[i]? = some t →
        Agree σ t r (fun κ => .int ((if i = j then c else 0) * X' κ)) ∧
        Eqns t (if i = j then c else 0) r (zeroCommitment t) := by
      intro i
      cases ht : subs[i]? with
      | none => exact ⟨.none, by simp⟩
      | some t =>
        have hm := List.mem_of_getElem? ht
        obtain ⟨r, hr⟩ := ih t hm (solidL_mem hs.2 t hm) (if i = j then c else 0) X' (by
          by_cases hij : i = j
          · subst hij; rw [if_pos rfl]; exact hX' t ht
          · rw [if_neg hij]; exact .inl rfl)
        exact ⟨r, fun u hu => by cases hu; exact hr⟩
    choose r hr using this
    have hri : ∀ i, i < subs.length → (Val.list ((List.range subs.length).map r)).index i = .ok (r i) := by
      intro i hi
      simp [Val.index, hi]
    refine ⟨.tuple [.list (((List.range subs.length).map fun i => if i = j then c else 0).map .int),
      .list ((List.range subs.length).map r)], .any b subs _ _ _ r _ (fun _ => rfl) hri
        fun i t ht => (hr i t ht).1, ?_⟩
    simp only [zeroCommitment]
    refine .any b subs c _ (.list ((List.range subs.length).map r)) _ _ r rfl rfl ?_ (by simp [zeroL_eq])
      (by simp) hri fun i t com ci ht hcom hci => ?_
    · rw [sum_single c _ j hj]
    · rw [zeroL_eq, List.getElem?_map, ht] at hcom
      cases hcom
      have hi := (List.getElem?_eq_some_iff.mp ht).1
      rw [List.getElem?_map, List.getElem?_range hi] at hci
      cases hci
      exact (hr i t ht).2

theorem zero_chunk (env : Env E) (t : Core E) : env.chunk (zeroCommitment t) = .ok (env.encode (zeroCommitment t)) := by
  cases t <;> rfl

end Zksk
