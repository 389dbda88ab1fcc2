import Verif.Lemmas.Sound
import Mathlib.RingTheory.Coprime.Lemmas
import Mathlib.Tactic.LinearCombination

/-! Responses made without any secret. -/

set_option linter.unusedSectionVars false

namespace Zksk

open Spec

variable {E : Type} [AddCommGroup E] [DecidableEq E]

theorem blindAll_eq (c : Int) : ∀ ts : List (Core E), blindAll c ts = ts.map (blindResponses c)
  | [] => by simp [blindAll]
  | t :: ts => by simp only [blindAll, List.map_cons, blindAll_eq c ts]

theorem blindFirst_get (c : Int) : ∀ (ts : List (Core E)) (i : Nat),
    (blindFirst c ts)[i]? = ts[i]?.map (blindResponses (if i = 0 then c else 0))
  | [], i => by simp [blindFirst]
  | t :: ts, 0 => by simp [blindFirst]
  | t :: ts, i + 1 => by simp [blindFirst, blindAll_eq]

theorem blindChallenges_get (c : Int) : ∀ (ts : List (Core E)),
    blindChallenges c ts = ((List.range ts.length).map fun i => if i = 0 then c else 0).map .int
  | [] => by simp [blindChallenges]
  | t :: ts => by
    simp only [blindChallenges, List.length_cons, List.range_succ_eq_map, List.map_cons, if_true, List.map_map,
      List.cons.injEq, true_and]
    apply List.ext_getElem?
    intro i
    by_cases hi : i < ts.length
    · simp [hi]
    · simp [hi]

theorem zip_zero : ∀ (vs : List Sec) (bs : List (Pt E)),
    (List.zipWith (fun (w : Int) (b : Pt E) => w • b.val) (vs.map fun _ => (0 : Int)) bs).sum = 0
  | [], bs => by simp
  | _ :: _, [] => by simp
  | v :: vs, b :: bs => by
    simp only [List.map_cons, List.zipWith_cons_cons, List.sum_cons, zip_zero vs bs, zero_smul, add_zero]

theorem blind_run (σ : Store) (Q : Int) : ∀ (t : Core E), Solid t → Killed Q t → ∀ (c : Int), Q ∣ c →
    Agree σ t (blindResponses c t) (fun _ => .int 0) ∧ Eqns t c (blindResponses c t) (zeroCommitment t) := by
  intro t
  induction t using Tree.ind with
  | leaf s =>
    intro hs hk c hc
    simp only [blindResponses, zeroCommitment]
    refine ⟨.rep _ _ _ ?_, ?_⟩
    · intro i x hx
      simp only [Val.index, List.getElem?_map, hx, Option.map_some]
    · have h0 : (0 : E) = (List.zipWith (fun (w : Int) (b : Pt E) => w • b.val)
          (s.secretVars.map fun _ => (0 : Int)) s.bases).sum - c • s.lhs.val := by
        obtain ⟨m, rfl⟩ := hc
        rw [zip_zero, mul_comm, mul_smul, hk.1, smul_zero, sub_zero]
      rw [h0]
      refine .rep s c _ _ _ rfl ?_ ?_ ?_
      · intro _; simp [hs.1]
      · rw [List.take_of_length_le (by simp [hs.1])]; simp
      · intro b hb; exact hs.2.2.1 b (List.mem_of_mem_take hb)
  | and b subs ih =>
    intro hs hk c hc
    simp only [blindResponses, zeroCommitment, blindAll_eq]
    have hr : ∀ i t, subs[i]? = some t → Agree σ t (blindResponses c t) (fun _ => .int 0) ∧
        Eqns t c (blindResponses c t) (zeroCommitment t) := fun i t ht =>
      ih t (List.mem_of_getElem? ht) (solidL_mem hs.2 t (List.mem_of_getElem? ht))
        (killedL_mem hk t (List.mem_of_getElem? ht)) c hc
    have hri : ∀ i, i < subs.length → (Val.list (subs.map (blindResponses c))).index i =
        .ok (((subs.map (blindResponses c))[i]?).getD .none) := by
      intro i hi
      simp [Val.index, hi]
    refine ⟨.all b subs _ _ _ hri fun i t ht => ?_, .all b subs c _ _ _ (by simp [zeroL_eq]) hri
      fun i t com ht hcom => ?_⟩
    · simp only [List.getElem?_map, ht, Option.map_some, Option.getD_some]; exact (hr i t ht).1
    · rw [zeroL_eq, List.getElem?_map, ht] at hcom
      cases hcom
      simp only [List.getElem?_map, ht, Option.map_some, Option.getD_some]; exact (hr i t ht).2
  | or b subs ih =>
    intro hs hk c hc
    simp only [blindResponses, zeroCommitment, blindChallenges_get]
    have hr : ∀ (i : Nat) t, subs[i]? = some t →
        Agree σ t (blindResponses (if i = 0 then c else 0) t) (fun _ => .int 0) ∧
        Eqns t (if i = 0 then c else 0) (blindResponses (if i = 0 then c else 0) t) (zeroCommitment t) :=
      fun i t ht => ih t (List.mem_of_getElem? ht) (solidL_mem hs.2 t (List.mem_of_getElem? ht))
        (killedL_mem hk t (List.mem_of_getElem? ht)) _ (by split; exacts [hc, dvd_zero _])
    have hri : ∀ i, i < subs.length → (Val.list (blindFirst c subs)).index i =
        .ok (((blindFirst c subs)[i]?).getD .none) := by
      intro i hi
      simp [Val.index, blindFirst_get, hi]
    refine ⟨.any b subs _ (.list (blindFirst c subs)) _ _ (fun _ _ => .int 0) (fun _ => rfl) hri
      fun i t ht => ?_, .any b subs c _ (.list (blindFirst c subs)) _ _ _ rfl rfl ?_ (by simp [zeroL_eq])
      (by simp) hri fun i t com ci ht hcom hci => ?_⟩
    · simp only [blindFirst_get, ht, Option.map_some, Option.getD_some]; exact (hr i t ht).1
    · rw [sum_single c _ 0 (by have := hs.1; cases subs <;> simp at this ⊢)]
    · rw [zeroL_eq, List.getElem?_map, ht] at hcom
      cases hcom
      have hi := (List.getElem?_eq_some_iff.mp ht).1
      rw [List.getElem?_map, List.getElem?_range hi] at hci
      cases hci
      simp only [blindFirst_get, ht, Option.map_some, Option.getD_some]; exact (hr i t ht).2

/-- All challenges 0 except for one that belongs to no clause. -/
theorem blind_extra (σ : Store) (b : Bool) (subs : List (Core E)) (hs : Solid (.or b subs))
    (hk : ∀ t ∈ subs, Killed 0 t) (c : Int) :
    let r : Val E := .tuple [.list (subs.map (fun _ => .int 0) ++ [.int c]), .list (blindAll 0 subs)]
    Agree σ (.or b subs) r (fun _ => .int 0) ∧ Eqns (.or b subs) c r (zeroCommitment (.or b subs)) := by
  intro r
  have hr : ∀ (i : Nat) t, subs[i]? = some t → Agree σ t (blindResponses 0 t) (fun _ => .int 0) ∧
      Eqns t 0 (blindResponses 0 t) (zeroCommitment t) := fun i t ht =>
    blind_run σ 0 t (solidL_mem hs.2 t (List.mem_of_getElem? ht)) (hk t (List.mem_of_getElem? ht)) 0
      (dvd_refl 0)
  have hri : ∀ i, i < subs.length → (Val.list (blindAll 0 subs)).index i =
      .ok (((blindAll 0 subs)[i]?).getD .none) := by
    intro i hi
    simp [Val.index, blindAll_eq, hi]
  have hcs : (subs.map (fun _ => Val.int 0) ++ [.int c] : List (Val E)) =
      ((subs.map fun _ => (0 : Int)) ++ [c]).map .int := by simp
  simp only [zeroCommitment]
  refine ⟨.any b subs _ (.list (blindAll 0 subs)) _ _ (fun _ _ => .int 0) (fun _ => rfl) hri
    fun i t ht => ?_, .any b subs c _ (.list (blindAll 0 subs)) ((subs.map fun _ => (0 : Int)) ++ [c]) _ _
    (by simp only [r, Val.index, List.getElem?_cons_zero, hcs]) rfl ?_ (by simp [zeroL_eq])
    (by simp) hri fun i t com ci ht hcom hci => ?_⟩
  · simp only [blindAll_eq, List.getElem?_map, ht, Option.map_some, Option.getD_some]; exact (hr i t ht).1
  · rw [List.sum_append]; simp
  · rw [zeroL_eq, List.getElem?_map, ht] at hcom
    cases hcom
    have hi := (List.getElem?_eq_some_iff.mp ht).1
    rw [List.getElem?_append_left (by simpa using hi), List.getElem?_map, ht] at hci
    cases hci
    simp only [blindAll_eq, List.getElem?_map, ht, Option.map_some, Option.getD_some]; exact (hr i t ht).2

mutual
theorem killed_zero : ∀ (t : Core E), Killed 0 t
  | .leaf _ => ⟨zero_smul _ _, fun _ _ => zero_smul _ _⟩
  | .and _ subs => killedL_zero subs
  | .or _ subs => killedL_zero subs
theorem killedL_zero : ∀ (ts : List (Core E)), KilledL 0 ts
  | [] => trivial
  | t :: ts => ⟨killed_zero t, killedL_zero ts⟩
end

/-- Multiples of an odd number reach everything modulo 2^128. -/
theorem odd_reach {Q : Int} (hQ : Odd Q) (c : Int) : ∃ m, Q ∣ m ∧ m % 2 ^ 128 = c % 2 ^ 128 := by
  have h2 : IsCoprime Q ((2 : Int) ^ 128) := by
    refine IsCoprime.pow_right ?_
    obtain ⟨k, hk⟩ := hQ
    exact ⟨1, -k, by rw [hk]; ring⟩
  obtain ⟨a, b, hab⟩ := h2
  refine ⟨c * a * Q, ⟨c * a, by ring⟩, ?_⟩
  refine Int.emod_eq_emod_iff_emod_sub_eq_zero.mpr (Int.emod_eq_zero_of_dvd ?_)
  exact ⟨-(c * b), by linear_combination c * hab⟩

/-- The challenge of a disjunction counts modulo 2^128 only. -/
theorem eqns_or_mod {b : Bool} {subs : List (Core E)} {c c' : Int} {r com : Val E}
    (h : Eqns (.or b subs) c r com) (hc : c % 2 ^ 128 = c' % 2 ^ 128) : Eqns (.or b subs) c' r com := by
  cases h with
  | any _ _ _ _ rs cs coms ri h1 h2 h3 h4 h5 h6 h7 =>
    exact .any b subs c' r rs cs coms ri h1 h2 (h3.trans hc) h4 h5 h6 h7

theorem zero_verify (env : Env E) (σ : Store) (t : Core E) (msg : String) (r : Int → Val E)
    (hr : ∀ c, (∃ ρ, Agree σ t (r c) ρ) ∧ Eqns t c (r c) (zeroCommitment t)) :
    ∃ c h, verify env σ t ⟨c, r c, .none, h⟩ msg = .ok true := by
  obtain ⟨id, _, hid, _⟩ := Tree.proofId_isOk (σ := σ) (skel_core t)
  obtain ⟨c, hc⟩ : ∃ c, env.fiatShamir id .none (zeroCommitment t) msg = .ok c := by
    unfold Env.fiatShamir Env.challengeInput
    rw [zero_chunk]
    exact ⟨_, rfl⟩
  refine ⟨c, env.digest id, ?_⟩
  obtain ⟨d', hd'⟩ := consistency_iff.mpr (hr c).1
  unfold verify digestPrecommitment checkStatement preVerification
  simp only [fresh_core, Val.isNone, if_true, bind_ok, hid, ne_eq, not_true_eq_false, if_false,
    validate_core, hd', (recompute_iff _ _ _ _).mpr (hr c).2, hc, decide_true]

end Zksk
