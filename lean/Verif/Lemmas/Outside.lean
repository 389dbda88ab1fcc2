import Verif.Lemmas.Forge
import Verif.Lemmas.RangeRun

/-! Responses made from the secrets outside disjunctions only. -/

set_option linter.unusedSectionVars false

namespace Zksk

open Spec

variable {E : Type} [AddCommGroup E] [DecidableEq E]

theorem forgedAll_eq (σ : Store) (X : Key → Int) (c : Int) : ∀ ts : List (Core E),
    forgedAll σ X c ts = ts.map (forgedResponses σ X c)
  | [] => rfl
  | t :: ts => by simp only [forgedAll, List.map_cons, forgedAll_eq σ X c ts]

theorem forged_run (σ : Store) (X : Key → Int) (c : Int) : ∀ (t : Core E), Solid t → OutsideTrue σ X t →
    Agree σ t (forgedResponses σ X c t) (fun κ => .int (c * X κ)) ∧
      Eqns t c (forgedResponses σ X c t) (zeroCommitment t) := by
  intro t
  induction t using Tree.ind with
  | leaf s =>
    intro hs ho
    have hl : forgedResponses σ X c (.leaf s) = .list ((s.secretVars.map fun x => c * X (σ.key x)).map .int) := by
      simp [forgedResponses]
    have hsum : c • (List.zipWith (fun x (b : Pt E) => X (σ.key x) • b.val) s.secretVars s.bases).sum -
        c • s.lhs.val = 0 := by
      cases ho with
      | rep _ h =>
        cases h with
        | rep _ _ _ h => rw [← h, sub_self]
    rw [hl]
    refine ⟨.rep _ _ _ ?_, ?_⟩
    · intro i x hx
      simp only [Val.index, List.getElem?_map, hx, Option.map_some]
    · simp only [zeroCommitment]
      rw [← hsum, ← zero_sum (fun x => X (σ.key x)) c]
      refine .rep s c _ _ _ rfl ?_ ?_ ?_
      · intro _; simp [hs.1]
      · rw [List.take_of_length_le (by simp [hs.1])]
      · intro b hb; exact hs.2.2.1 b (List.mem_of_mem_take hb)
  | and b subs ih =>
    intro hs ho
    have ho : ∀ t ∈ subs, OutsideTrue σ X t := by
      cases ho with
      | all _ _ h => exact h
    have hr : ∀ (i : Nat) t, subs[i]? = some t →
        Agree σ t ((forgedAll σ X c subs)[i]?.getD .none) (fun κ => .int (c * X κ)) ∧
        Eqns t c ((forgedAll σ X c subs)[i]?.getD .none) (zeroCommitment t) := by
      intro i t ht
      have hm := List.mem_of_getElem? ht
      rw [forgedAll_eq, List.getElem?_map, ht]
      exact ih t hm (solidL_mem hs.2 t hm) (ho t hm)
    have hri : ∀ i, i < subs.length → (Val.list (forgedAll σ X c subs)).index i =
        .ok ((forgedAll σ X c subs)[i]?.getD .none) := by
      intro i hi
      simp [Val.index, forgedAll_eq, hi]
    simp only [forgedResponses, zeroCommitment]
    refine ⟨.all b subs _ _ _ hri fun i t ht => (hr i t ht).1, ?_⟩
    refine .all b subs c _ _ _ (by simp [zeroL_eq]) hri fun i t com ht hcom => ?_
    rw [zeroL_eq, List.getElem?_map, ht] at hcom
    cases hcom
    exact (hr i t ht).2
  | or b subs _ =>
    intro hs _
    have h := blind_extra σ b subs hs (fun t _ => killed_zero t) c
    simp only [forgedResponses]
    refine ⟨?_, h.2⟩
    have h1 := h.1
    cases h1 with
    | any _ _ _ rs _ ri ρi g1 g2 g3 => exact .any b subs _ rs _ ri ρi g1 g2 g3

theorem extract_outside {σ : Store} {Q : Int} : ∀ (t : Core E), WellFormed t → Killed Q t →
    ∀ (u c c' : Int) (r r' com : Val E) (ρ ρ' : Key → Val E), Q ∣ u * (c - c') - 1 →
    Agree σ t r ρ → Agree σ t r' ρ' → Eqns t c r com → Eqns t c' r' com →
    OutsideTrue σ (fun κ => u * (iv (ρ κ) - iv (ρ' κ))) t := by
  intro t
  induction t using Tree.ind with
  | leaf s =>
    intro hw hk u c c' r r' com ρ ρ' hu ha ha' he he'
    exact .rep _ (extract_rep hw hk hu ha ha' he he')
  | and b subs ih =>
    intro hw hk u c c' r r' com ρ ρ' hu ha ha' he he'
    cases ha with
    | all _ _ _ _ ri hri ha =>
    cases ha' with
    | all _ _ _ _ ri' hri' ha' =>
    cases he with
    | all _ _ _ _ coms rj hl hrj he =>
    cases he' with
    | all _ _ _ _ _ rj' hl' hrj' he' =>
    refine .all _ _ fun t ht => ?_
    obtain ⟨i, hi⟩ := List.mem_iff_getElem?.mp ht
    have hlt := (List.getElem?_eq_some_iff.mp hi).1
    obtain ⟨cm, hcm⟩ : ∃ cm, coms[i]? = some cm := ⟨_, List.getElem?_eq_getElem (by omega)⟩
    have e1 : ri i = rj i := by have := hri i hlt; rw [hrj i hlt] at this; exact (Except.ok.inj this).symm
    have e2 : ri' i = rj' i := by have := hri' i hlt; rw [hrj' i hlt] at this; exact (Except.ok.inj this).symm
    exact ih t ht (wellFormedL_iff.mp hw.2 t ht) (killedL_mem hk t ht) u c c' (ri i) (ri' i) cm ρ ρ' hu
      (ha i t hi) (ha' i t hi) (e1 ▸ he i t cm hi hcm) (e2 ▸ he' i t cm hi hcm)
  | or b subs _ =>
    intro _ _ _ _ _ _ _ _ _ _ _ _ _ _ _
    exact .any _ _

namespace PowerTwo

/-- The bit commitments `com, 0, …, 0`. -/
def lone (s : PowerTwo E) : List (Pt E) := s.com :: List.replicate (s.numBits - 1) s.g.grp.inf

theorem lone_length {s : PowerTwo E} (hn : 2 ≤ s.numBits) : s.lone.length = s.numBits := by
  simp [lone]; omega

theorem lone_grp {s : PowerTwo E} (hc : s.com.grp = s.g.grp) : ∀ c ∈ s.lone, c.grp = s.g.grp := by
  intro c hm
  rcases List.mem_cons.mp hm with rfl | hm
  · exact hc
  · rw [List.eq_of_mem_replicate hm]; rfl

/-- The precommitment with these bit commitments passes, and the statement made of it is a conjunction of
disjunctions. -/
theorem lone_ok {s : PowerTwo E} (σ : Store) (hp : s.isProver = false) (hn : 2 ≤ s.numBits)
    (hc : s.com.grp = s.g.grp) (hh : s.h.grp = s.g.grp) (ho : s.g.grp.order ≠ 0) (X : Key → Int) :
    ∃ k, s.construct σ (.dict [("Cs", .list (s.lone.map .pt)), ("rand", .int 0)]) = .ok k ∧
      s.validate (.dict [("Cs", .list (s.lone.map .pt)), ("rand", .int 0)]) = .ok () ∧ Solid k ∧
      OutsideTrue σ X k := by
  set v : Val E := .dict [("Cs", .list (s.lone.map .pt)), ("rand", .int 0)] with hv
  have hl : v.lookup "Cs" = .ok (.list (s.lone.map .pt)) := rfl
  have hr : v.lookup "rand" = .ok (.int 0) := rfl
  have hval : s.validate v = .ok () := by
    refine (validate_iff s v).mpr ⟨0, _, s.lone, hr, hl, rfl, lone_grp hc, hc, hh, ?_⟩
    simp only [lone, List.map_cons, List.map_replicate, hornerE]
    rw [show s.g.grp.inf.val = (0 : E) from rfl, hornerE_zero]
    simp
  have hlen : s.lone.length = s.rands.length := lone_length hn
  have hcon : s.construct σ v = .ok (.and false (build σ s s.lone s.rands none)) := by
    unfold construct proverBits
    simp only [hp, Bool.false_eq_true, if_false, bind_ok]
    rw [bitProofs_of hl s.rands 0 none s.lone hlen (lone_grp hc) ?_ (by simp)]
    · have := build_length (σ := σ) (s := s) s.rands s.lone none hlen (by simp)
      rw [bind_ok]
      unfold mkAnd
      rw [if_neg (by rw [this]; unfold numBits at hn; omega)]
    · intro j c hj
      simp only [Nat.zero_add, Val.index, List.getElem?_map, hj, Option.map_some]
  have hmem : ∀ t ∈ build σ s s.lone s.rands none, ∃ c rand bit, c.grp = s.g.grp ∧
      t = .or false (clauses σ s c rand bit) := by
    intro t ht
    obtain ⟨c, hm, rand, _, bit, rfl⟩ := mem_build _ _ _ _ ht
    exact ⟨c, rand, bit, lone_grp hc c hm, rfl⟩
  have hsolidL : ∀ ts : List (Core E), (∀ t ∈ ts, Solid t) → SolidL ts := by
    intro ts
    induction ts with
    | nil => intro _; trivial
    | cons t ts ih => exact fun h => ⟨h t (by simp), ih fun t ht => h t (by simp [ht])⟩
  refine ⟨_, hcon, hval, ⟨(toAnd s σ v _ hcon).1.1, hsolidL _ fun t ht => ?_⟩, .all _ _ fun t ht => ?_⟩
  · obtain ⟨c, rand, bit, hg, rfl⟩ := hmem t ht
    simp [clauses, Solid, SolidL, hg, hh, ho]
  · obtain ⟨c, rand, bit, hg, rfl⟩ := hmem t ht
    exact .any _ _

end PowerTwo

end Zksk
