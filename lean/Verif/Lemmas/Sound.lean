import Verif.SpecSound
import Verif.SpecProver
import Verif.Lemmas.Zero
import Mathlib.Tactic.Linarith
import Mathlib.Tactic.Module

/-! Extraction of witnesses from two transcripts with the same commitment. -/

set_option linter.unusedSectionVars false

namespace Zksk

open Spec

variable {E : Type} [AddCommGroup E] [DecidableEq E]

/-- The integer in a value. -/
def iv : Val E → Int
  | .int n => n
  | _ => 0

theorem killedL_mem {Q : Int} : ∀ {ts : List (Core E)}, KilledL Q ts → ∀ t ∈ ts, Killed Q t
  | _ :: _, h, t, ht => by
    rcases List.mem_cons.mp ht with rfl | ht
    · exact h.1
    · exact killedL_mem h.2 t ht

theorem inRangeL_get : ∀ {ts : List (Core E)} {r : Val E} {n : Nat}, InRangeL ts r n →
    ∀ (i : Nat) (t : Core E) (ri : Val E), ts[i]? = some t → r.index (n + i) = .ok ri → InRange t ri
  | [], _, _, _, i, t, ri, ht, _ => by simp at ht
  | _ :: _, r, n, h, 0, t, ri, ht, hr => by
    simp only [List.getElem?_cons_zero, Option.some.injEq] at ht
    subst ht
    exact h.1 ri hr
  | _ :: ts, r, n, h, i + 1, t, ri, ht, hr =>
    inRangeL_get h.2 i t ri ht (by rw [← hr]; congr 1; omega)

mutual
theorem inRange_of_orFree : ∀ (t : Core E), OrFree t → ∀ r, InRange t r
  | .leaf _, _, _ => trivial
  | .and _ subs, h, r => by
    cases h with
    | all _ _ h => exact inRangeL_of_orFree subs h r 0
  | .or _ _, h, _ => by cases h
theorem inRangeL_of_orFree : ∀ (ts : List (Core E)), (∀ t ∈ ts, OrFree t) → ∀ r n, InRangeL ts r n
  | [], _, _, _ => trivial
  | t :: ts, h, r, n => ⟨fun ri _ => inRange_of_orFree t (h t (by simp)) ri,
      inRangeL_of_orFree ts (fun u hu => h u (by simp [hu])) r (n + 1)⟩
end

/-- The responses of a representation in the form in which the equations use them. -/
theorem rep_responses {σ : Store} {s : DLRep E} {c : Int} {r com : Val E} {ρ : Key → Val E}
    (hlen : s.secretVars.length = s.bases.length) (ha : Agree σ (.leaf s) r ρ)
    (he : Eqns (.leaf s) c r com) :
    com = .pt ⟨s.lhs.grp, (List.zipWith (fun x b => iv (ρ (σ.key x)) • b.val) s.secretVars s.bases).sum -
      c • s.lhs.val⟩ ∧ (∀ b ∈ s.bases, b.grp = s.lhs.grp) ∧
      ∀ x ∈ s.secretVars, ρ (σ.key x) = .int (iv (ρ (σ.key x))) := by
  cases he with
  | rep _ _ _ vs ws hr hl hws hgrp =>
  cases ha with
  | rep _ _ _ h =>
  have hidx : ∀ i (v : Val E), r.index i = .ok v → vs[i]? = some v := by
    intro i v hv
    cases r with
    | list l =>
      simp only [Val.elems, Except.ok.injEq] at hr; subst hr
      simp only [Val.index] at hv
      split at hv
      · rename_i v' hv'; cases hv; exact hv'
      · cases hv
    | tuple l =>
      simp only [Val.elems, Except.ok.injEq] at hr; subst hr
      simp only [Val.index] at hv
      split at hv
      · rename_i v' hv'; cases hv; exact hv'
      · cases hv
    | bytes b =>
      simp only [Val.elems, Except.ok.injEq] at hr; subst hr
      simp only [Val.index] at hv
      split at hv
      · rename_i v' hv'; cases hv; simp [hv']
      · cases hv
    | dict l => simp [Val.index] at hv
    | none => simp [Val.index] at hv
    | int _ => simp [Val.index] at hv
    | pt _ => simp [Val.index] at hv
    | str _ => simp [Val.index] at hv
  have hws' : ∀ (i : Nat) (x : Sec), s.secretVars[i]? = some x → ∃ w : Int, ws[i]? = some w ∧ ρ (σ.key x) = .int w := by
    intro i x hx
    have h1 := hidx i _ (h i x hx)
    have hi : i < s.bases.length := by
      have := (List.getElem?_eq_some_iff.mp hx).1; omega
    have h2 : (vs.take s.bases.length)[i]? = some (ρ (σ.key x)) := by
      rw [List.getElem?_take_of_lt hi]; exact h1
    rw [hws, List.getElem?_map, Option.map_eq_some_iff] at h2
    obtain ⟨w, hw, hw'⟩ := h2
    exact ⟨w, hw, hw'.symm⟩
  have hwl : ws.length = s.bases.length := by
    have h1 : ws.length ≤ s.bases.length := by
      have := congrArg List.length hws
      simp only [List.length_take, List.length_map] at this
      omega
    rcases Nat.lt_or_ge ws.length s.bases.length with h2 | h2
    · obtain ⟨x, hx⟩ : ∃ x, s.secretVars[ws.length]? = some x :=
        ⟨_, List.getElem?_eq_getElem (by omega)⟩
      obtain ⟨w, hw, _⟩ := hws' _ x hx
      simp at hw
    · omega
  refine ⟨?_, fun b hb => hgrp b (by rw [hwl, List.take_length]; exact hb), fun x hx => ?_⟩
  · congr 4
    apply List.ext_getElem?
    intro i
    rw [List.getElem?_zipWith, List.getElem?_zipWith]
    cases hx : s.secretVars[i]? with
    | none =>
      have : s.bases[i]? = none := by
        rw [List.getElem?_eq_none_iff] at hx ⊢; omega
      simp [this]
    | some x =>
      obtain ⟨w, hw, hw'⟩ := hws' i x hx
      rw [hw]
      cases hb : s.bases[i]? with
      | none => rfl
      | some b => simp only [hw', iv]
  · obtain ⟨i, hi⟩ := List.mem_iff_getElem?.mp hx
    obtain ⟨w, _, hw⟩ := hws' i x hi
    rw [hw]; rfl

theorem zip_sub_smul (u : Int) (f g : Sec → Int) : ∀ (vs : List Sec) (bs : List (Pt E)),
    (List.zipWith (fun x (b : Pt E) => (u * (f x - g x)) • b.val) vs bs).sum =
      u • ((List.zipWith (fun x (b : Pt E) => f x • b.val) vs bs).sum -
        (List.zipWith (fun x (b : Pt E) => g x • b.val) vs bs).sum)
  | [], bs => by simp
  | _ :: _, [] => by simp
  | v :: vs, b :: bs => by
    simp only [List.zipWith_cons_cons, List.sum_cons, zip_sub_smul u f g vs bs]
    module

/-- Extraction for a representation. -/
theorem extract_rep {σ : Store} {s : DLRep E} {Q u c c' : Int} {r r' com : Val E} {ρ ρ' : Key → Val E}
    (hlen : s.secretVars.length = s.bases.length) (hk : Killed Q (.leaf s)) (hu : Q ∣ u * (c - c') - 1)
    (ha : Agree σ (.leaf s) r ρ) (ha' : Agree σ (.leaf s) r' ρ')
    (he : Eqns (.leaf s) c r com) (he' : Eqns (.leaf s) c' r' com) :
    Holds σ (.leaf s) (fun κ => u * (iv (ρ κ) - iv (ρ' κ))) := by
  obtain ⟨h1, h2, _⟩ := rep_responses hlen ha he
  obtain ⟨h1', _, _⟩ := rep_responses hlen ha' he'
  rw [h1] at h1'
  simp only [Val.pt.injEq, Pt.mk.injEq, true_and] at h1'
  refine .rep _ _ h2 ?_
  rw [zip_sub_smul u (fun x => iv (ρ (σ.key x))) (fun x => iv (ρ' (σ.key x)))]
  have h3 : (List.zipWith (fun x b => iv (ρ (σ.key x)) • b.val) s.secretVars s.bases).sum -
      (List.zipWith (fun x b => iv (ρ' (σ.key x)) • b.val) s.secretVars s.bases).sum =
      (c - c') • s.lhs.val := by
    have h4 := sub_eq_sub_iff_add_eq_add.mp h1'
    rw [sub_smul, sub_eq_sub_iff_add_eq_add, h4, add_comm]
  rw [h3, ← mul_smul]
  obtain ⟨m, hm⟩ := hu
  rw [show u * (c - c') = m * Q + 1 by linarith, add_smul, one_smul, mul_smul, hk.1, smul_zero, zero_add]

/-- Extraction for all statements. -/
theorem extract {σ : Store} {Q : Int} : ∀ (t : Core E), WellFormed t → Killed Q t →
    ∀ (u c c' : Int) (r r' com : Val E) (ρ ρ' : Key → Val E), Q ∣ u * (c - c') - 1 →
    (OrFree t ∨ (BigFactors Q ∧ c % 2 ^ 128 ≠ c' % 2 ^ 128)) → InRange t r → InRange t r' →
    Agree σ t r ρ → Agree σ t r' ρ' → Eqns t c r com → Eqns t c' r' com →
    Holds σ t (fun κ => u * (iv (ρ κ) - iv (ρ' κ))) := by
  intro t
  induction t using Tree.ind with
  | leaf s =>
    intro hw hk u c c' r r' com ρ ρ' hu _ _ _ ha ha' he he'
    exact extract_rep hw hk hu ha ha' he he'
  | and b subs ih =>
    intro hw hk u c c' r r' com ρ ρ' hu hor hin hin' ha ha' he he'
    cases ha with
    | all _ _ _ _ ri hri ha =>
    cases ha' with
    | all _ _ _ _ ri' hri' ha' =>
    cases he with
    | all _ _ _ _ coms rj hl hrj he =>
    cases he' with
    | all _ _ _ _ _ rj' hl' hrj' he' =>
    refine .all _ _ _ fun t ht => ?_
    obtain ⟨i, hi⟩ := List.mem_iff_getElem?.mp ht
    have hlt := (List.getElem?_eq_some_iff.mp hi).1
    obtain ⟨cm, hcm⟩ : ∃ cm, coms[i]? = some cm := ⟨_, List.getElem?_eq_getElem (by omega)⟩
    have e1 : ri i = rj i := by have := hri i hlt; rw [hrj i hlt] at this; exact (Except.ok.inj this).symm
    have e2 : ri' i = rj' i := by have := hri' i hlt; rw [hrj' i hlt] at this; exact (Except.ok.inj this).symm
    refine ih t ht (wellFormedL_iff.mp hw.2 t ht) (killedL_mem hk t ht) u c c' (ri i) (ri' i) cm ρ ρ' hu
      (hor.imp_left fun h => by
        cases h with
        | all _ _ h => exact h t ht)
      (inRangeL_get hin i t (ri i) hi (by rw [Nat.zero_add]; exact hri i hlt))
      (inRangeL_get hin' i t (ri' i) hi (by rw [Nat.zero_add]; exact hri' i hlt))
      (ha i t hi) (ha' i t hi) (e1 ▸ he i t cm hi hcm) (e2 ▸ he' i t cm hi hcm)
  | or b subs ih =>
    intro hw hk u c c' r r' com ρ ρ' hu hor hin hin' ha ha' he he'
    rcases hor with h | ⟨hbig, hne⟩
    · cases h
    cases ha with
    | any _ _ _ rs _ ri ρi hrs hri ha =>
    cases ha' with
    | any _ _ _ rs' _ ri' ρi' hrs' hri' ha' =>
    cases he with
    | any _ _ _ _ qs cs coms rj hcs hqs hsum hl hl2 hrj he =>
    cases he' with
    | any _ _ _ _ qs' cs' _ rj' hcs' hqs' hsum' hl' hl2' hrj' he' =>
    have hrs := hrs hw.1
    have hrs' := hrs' hw.1
    have e3 : rs = qs := by rw [hqs] at hrs; cases hrs; rfl
    have e4 : rs' = qs' := by rw [hqs'] at hrs'; cases hrs'; rfl
    subst e3; subst e4
    obtain ⟨l1, r1⟩ := hin.1 cs hcs
    obtain ⟨l2, r2⟩ := hin'.1 cs' hcs'
    obtain ⟨i, hi, hdiff⟩ : ∃ i, i < subs.length ∧ cs.getD i 0 % 2 ^ 128 ≠ cs'.getD i 0 % 2 ^ 128 := by
      by_contra hcon
      push Not at hcon
      apply hne
      rw [← hsum, ← hsum']
      have : ∀ (as bs : List Int), as.length = bs.length →
          (∀ i, i < as.length → as.getD i 0 % 2 ^ 128 = bs.getD i 0 % 2 ^ 128) →
          as.sum % 2 ^ 128 = bs.sum % 2 ^ 128 := by
        intro as
        induction as with
        | nil => intro bs h _; cases bs with
          | nil => rfl
          | cons _ _ => simp at h
        | cons a as iha =>
          intro bs h hh
          cases bs with
          | nil => simp at h
          | cons b bs =>
            rw [List.sum_cons, List.sum_cons, Int.add_emod,
              iha bs (by simpa using h) (fun i hi => by
                have := hh (i + 1) (by simpa using hi); simpa using this),
              show a % 2 ^ 128 = b % 2 ^ 128 by simpa using hh 0 (by simp), ← Int.add_emod]
      exact this cs cs' (by omega) fun i hi => hcon i (by omega)
    obtain ⟨a, ha1⟩ : ∃ a, cs[i]? = some a := ⟨_, List.getElem?_eq_getElem (by omega)⟩
    obtain ⟨a', ha1'⟩ : ∃ a, cs'[i]? = some a := ⟨_, List.getElem?_eq_getElem (by omega)⟩
    obtain ⟨t, ht⟩ : ∃ t, subs[i]? = some t := ⟨_, List.getElem?_eq_getElem hi⟩
    obtain ⟨cm, hcm⟩ : ∃ cm, coms[i]? = some cm := ⟨_, List.getElem?_eq_getElem (by omega)⟩
    have hdiff' : a % 2 ^ 128 ≠ a' % 2 ^ 128 := by
      simpa [List.getD, ha1, ha1'] using hdiff
    have hcop : IsCoprime (a - a') Q := by
      have b1 := r1 a (List.mem_of_getElem? ha1)
      have b2 := r2 a' (List.mem_of_getElem? ha1')
      refine hbig _ (fun h0 => hdiff' ?_) ?_
      · rw [show a = a' by omega]
      · rw [abs_lt]
        constructor <;> linarith [b1.1, b1.2, b2.1, b2.2]
    obtain ⟨v, q, hvq⟩ := hcop
    have hm := List.mem_of_getElem? ht
    have e1 : ri i = rj i := by have := hri i hi; rw [hrj i hi] at this; exact (Except.ok.inj this).symm
    have e2 : ri' i = rj' i := by have := hri' i hi; rw [hrj' i hi] at this; exact (Except.ok.inj this).symm
    refine .any _ _ _ _ t hm (ih t hm (wellFormedL_iff.mp hw.2 t hm) (killedL_mem hk t hm) v a a' (ri i) (ri' i)
      cm (ρi i) (ρi' i) ⟨-q, by linarith⟩ (.inr ⟨hbig, hdiff'⟩)
      (inRangeL_get (hin.2 _ hrs) i t (ri i) ht (by rw [Nat.zero_add]; exact hri i hi))
      (inRangeL_get (hin'.2 _ hrs') i t (ri' i) ht (by rw [Nat.zero_add]; exact hri' i hi))
      (ha i t ht) (ha' i t ht) (e1 ▸ he i t cm a ht hcm ha1) (e2 ▸ he' i t cm a' ht hcm ha1'))

theorem verifyResponse_iff {σ : Store} {t : Core E} {com r : Val E} {c : Int} :
    verifyResponse σ t com c r = .ok true ↔ (∃ ρ, Agree σ t r ρ) ∧ Eqns t c r com := by
  unfold verifyResponse preVerification
  rw [validate_core, bind_ok]
  constructor
  · intro h
    rw [bind_ok_iff] at h
    obtain ⟨_, h1, h2⟩ := h
    rw [bind_ok_iff] at h1
    obtain ⟨⟨b, d'⟩, h3, h4⟩ := h1
    rw [bind_ok_iff] at h2
    obtain ⟨com', h5, h6⟩ := h2
    simp only [Except.ok.injEq, decide_eq_true_eq] at h6
    subst h6
    cases b with
    | false => simp at h4
    | true => exact ⟨consistency_iff.mp ⟨d', h3⟩, (recompute_iff _ _ _ _).mp h5⟩
  · rintro ⟨h1, h2⟩
    obtain ⟨d', h3⟩ := consistency_iff.mpr h1
    rw [h3, bind_ok]
    simp only [if_true, bind_ok, (recompute_iff _ _ _ _).mpr h2, decide_true]

end Zksk
