import Verif.SpecExpr
import Verif.Lemmas.Monad

/-! Facts about expression heaps. -/

set_option linter.unusedSectionVars false

namespace Zksk

open Spec

variable {E : Type} [AddCommGroup E] [DecidableEq E]

/-- A well-formed expression object. -/
def EObj.Fine (e : EObj E) : Prop := e.secrets.length = e.bases.length ∧ e.secrets ≠ []

theorem newExpr_ok {h h' : EHeap E} {s : Sec} {b : Pt E} {r : Nat}
    (hn : newExpr h (.secret s) b = .ok (r, h')) : r = h.length ∧ h' = h ++ [⟨[s], [b]⟩] := by
  simp only [newExpr, Except.ok.injEq, Prod.mk.injEq] at hn
  exact ⟨hn.1.symm, hn.2.symm⟩

theorem addExpr_iff {h h' : EHeap E} {l o r : Nat} :
    addExpr h l (.expr o) = .ok (r, h') ↔ r = l ∧ ∃ a b, h[l]? = some a ∧ h[o]? = some b ∧
      h' = h.set l ⟨a.secrets ++ b.secrets, a.bases ++ b.bases⟩ := by
  simp only [addExpr]
  cases h[l]? with
  | none => simp
  | some a =>
    cases h[o]? with
    | none => simp
    | some b =>
      simp only [Except.ok.injEq, Prod.mk.injEq, Option.some.injEq]
      constructor
      · rintro ⟨h1, h2⟩; exact ⟨h1.symm, a, b, rfl, rfl, h2.symm⟩
      · rintro ⟨h1, _, _, rfl, rfl, h2⟩; exact ⟨h1.symm, h2.symm⟩

theorem reached_fine {h : EHeap E} (hr : Reached h) : ∀ e ∈ h, e.Fine := by
  induction hr with
  | start => simp
  | mul s b _ h1 ih =>
    obtain ⟨_, rfl⟩ := newExpr_ok h1
    intro e he
    rcases List.mem_append.mp he with he | he
    · exact ih e he
    · simp only [List.mem_singleton] at he
      subst he
      exact ⟨rfl, by simp⟩
  | add l o _ h1 ih =>
    obtain ⟨_, a, b, ha, hb, rfl⟩ := addExpr_iff.mp h1
    intro e he
    rcases List.mem_or_eq_of_mem_set he with he | rfl
    · exact ih e he
    · obtain ⟨a1, a2⟩ := ih a (List.mem_of_getElem? ha)
      obtain ⟨b1, b2⟩ := ih b (List.mem_of_getElem? hb)
      exact ⟨by simp [a1, b1], by simp [a2]⟩

theorem ithMul_ok {σ : Store} {e : EObj E} {v : Sec → Int} (hv : ∀ x ∈ e.secrets, σ.value x = some (v x))
    {i : Nat} {x : Sec} {b : Pt E} (hx : e.secrets[i]? = some x) (hb : e.bases[i]? = some b) :
    e.ithMul σ i = .ok (Pt.smul (v x) b) := by
  simp only [EObj.ithMul, hx, hb, hv x (List.mem_of_getElem? hx)]

theorem evalGo_ok {σ : Store} {e : EObj E} {v : Sec → Int} (hl : e.secrets.length = e.bases.length)
    (hv : ∀ x ∈ e.secrets, σ.value x = some (v x)) {g : Grp} (hg : ∀ b ∈ e.bases, b.grp = g) :
    ∀ (k i : Nat) (acc : E), i + k = e.secrets.length →
    e.evalGo σ k i ⟨g, acc⟩ =
      .ok ⟨g, acc + (((e.secrets.zip e.bases).drop i).map fun p => v p.1 • p.2.val).sum⟩
  | 0, i, acc, h => by
    rw [List.drop_eq_nil_of_le (by rw [List.length_zip]; omega)]
    simp [EObj.evalGo]
  | k + 1, i, acc, h => by
    have hi : i < e.secrets.length := by omega
    have hi' : i < e.bases.length := by omega
    have hx : e.secrets[i]? = some e.secrets[i] := List.getElem?_eq_getElem _
    have hb : e.bases[i]? = some e.bases[i] := List.getElem?_eq_getElem _
    have hgb := hg _ (List.getElem_mem hi')
    simp only [EObj.evalGo]
    rw [ithMul_ok hv hx hb]
    simp only [bind_ok, Pt.add, Pt.smul, hgb, if_true]
    rw [evalGo_ok hl hv hg k (i + 1) _ (by omega)]
    have hz : i < (e.secrets.zip e.bases).length := by rw [List.length_zip]; omega
    rw [List.drop_eq_getElem_cons hz]
    simp [add_assoc]

theorem eval_ok {σ : Store} {e : EObj E} (he : e.Fine) {v : Sec → Int}
    (hv : ∀ x ∈ e.secrets, σ.value x = some (v x)) {g : Grp} (hg : ∀ b ∈ e.bases, b.grp = g) :
    e.eval σ = .ok ⟨g, ((e.secrets.zip e.bases).map fun p => v p.1 • p.2.val).sum⟩ := by
  obtain ⟨hl, hn⟩ := he
  have hpos : 0 < e.secrets.length := List.length_pos_iff.mpr hn
  have hc : ¬ (e.secrets.any fun s => (σ.value s).isNone) = true := by
    simp only [List.any_eq_true, not_exists, not_and, Bool.not_eq_true]
    intro x hx
    simp [hv x hx]
  simp only [EObj.eval, if_neg hc]
  have hx : e.secrets[0]? = some e.secrets[0] := List.getElem?_eq_getElem _
  have hb : e.bases[0]? = some (e.bases[0]'(by omega)) := List.getElem?_eq_getElem _
  have hgb := hg (e.bases[0]'(by omega)) (List.getElem_mem _)
  rw [ithMul_ok hv hx hb]
  simp only [bind_ok, Pt.smul, hgb]
  rw [evalGo_ok hl hv hg _ _ _ (by omega)]
  have hz : 0 < (e.secrets.zip e.bases).length := by rw [List.length_zip]; omega
  conv_rhs => rw [← List.drop_zero (l := e.secrets.zip e.bases), List.drop_eq_getElem_cons hz]
  simp

theorem evalGo_ne {σ : Store} {e : EObj E} : ∀ (k i : Nat) (acc : Pt E),
    e.evalGo σ k i acc ≠ .error .incompleteValues
  | 0, i, acc => by simp [EObj.evalGo]
  | k + 1, i, acc => by
    simp only [EObj.evalGo]
    intro h
    cases hm : e.ithMul σ i with
    | error er =>
      simp only [hm, bind, Except.bind] at h
      injection h with h
      subst h
      simp only [EObj.ithMul] at hm
      split at hm
      · cases hm
      · split at hm <;> cases hm
    | ok p =>
      simp only [hm, bind_ok] at h
      simp only [Pt.add] at h
      split at h
      · simp only [bind_ok] at h
        exact evalGo_ne k (i + 1) _ h
      · cases h

theorem eval_incomplete {σ : Store} {e : EObj E} :
    e.eval σ = .error .incompleteValues ↔ ∃ x ∈ e.secrets, σ.value x = none := by
  constructor
  · intro h
    by_contra hn
    have hc : ¬ (e.secrets.any fun s => (σ.value s).isNone) = true := by
      simp only [List.any_eq_true, not_exists, not_and, Option.isNone_iff_eq_none]
      intro x hx hx'
      exact hn ⟨x, hx, hx'⟩
    simp only [EObj.eval, if_neg hc] at h
    cases hm : e.ithMul σ 0 with
    | error er =>
      simp only [hm, bind, Except.bind] at h
      injection h with h
      subst h
      simp only [EObj.ithMul] at hm
      split at hm
      · cases hm
      · split at hm <;> cases hm
    | ok p =>
      simp only [hm, bind_ok] at h
      exact evalGo_ne _ _ _ h
  · rintro ⟨x, hx, hv⟩
    have hc : (e.secrets.any fun s => (σ.value s).isNone) = true := by
      simp only [List.any_eq_true, Option.isNone_iff_eq_none]
      exact ⟨x, hx, hv⟩
    simp only [EObj.eval, if_pos hc]

/-- Running a formula creates new objects only. -/
theorem formula_run : ∀ (f : Formula E) (h : EHeap E), ∃ (r : Nat) (h' : EHeap E) (e : EObj E),
    f.run h = .ok (r, h') ∧ h.length ≤ r ∧ h'[r]? = some e ∧
    e.secrets = f.products.map Prod.fst ∧ e.bases = f.products.map Prod.snd ∧
    (h.length ≤ h'.length) ∧ (∀ i, i < h.length → h'[i]? = h[i]?) ∧ (Reached h → Reached h')
  | .term x b, h => ⟨h.length, h ++ [⟨[x], [b]⟩], ⟨[x], [b]⟩, rfl, le_refl _, by simp, rfl, rfl,
      by simp, fun i hi => by rw [List.getElem?_append_left hi], fun hr => .mul x b hr rfl⟩
  | .plus l r, h => by
    obtain ⟨a, h1, e1, k1, k2, k3, k4, k5, k6, k7, k8⟩ := formula_run l h
    obtain ⟨b, h2, e2, m1, m2, m3, m4, m5, m6, m7, m8⟩ := formula_run r h1
    have ha : a < h1.length := (List.getElem?_eq_some_iff.mp k3).1
    have hadd : addExpr h2 a (.expr b) =
        .ok (a, h2.set a ⟨e1.secrets ++ e2.secrets, e1.bases ++ e2.bases⟩) := by
      rw [addExpr_iff]
      exact ⟨rfl, e1, e2, by rw [m7 a ha, k3], m3, rfl⟩
    refine ⟨a, h2.set a ⟨e1.secrets ++ e2.secrets, e1.bases ++ e2.bases⟩,
      ⟨e1.secrets ++ e2.secrets, e1.bases ++ e2.bases⟩, ?_, k2, ?_, ?_, ?_, ?_, ?_, fun hr => ?_⟩
    · simp only [Formula.run, k1, bind_ok, m1, hadd]
    · rw [List.getElem?_set_self (by omega)]
    · simp [Formula.products, k4, m4]
    · simp [Formula.products, k5, m5]
    · rw [List.length_set]; omega
    · intro i hi
      rw [List.getElem?_set_ne (by omega), m7 i (by omega), k7 i hi]
    · exact .add a b (m8 (k8 hr)) hadd

theorem value_eq_sum {v : Sec → Int} : ∀ (f : Formula E),
    ((f.products.map Prod.fst).zip (f.products.map Prod.snd) |>.map fun p => v p.1 • p.2.val).sum = f.value v := by
  intro f
  have hz : ∀ l : List (Sec × Pt E), (l.map Prod.fst).zip (l.map Prod.snd) = l := by
    intro l
    induction l with
    | nil => rfl
    | cons a l ih => simp [ih]
  rw [hz]
  induction f with
  | term x b => simp [Formula.products, Formula.value]
  | plus l r ihl ihr => simp [Formula.products, Formula.value, ihl, ihr]

theorem wsumLoop_ok (ss : List Sec) (bs : List (Pt E)) (hl : ss.length = bs.length) :
    ∀ (k idx : Nat) (h : EHeap E) (r : Nat), idx + 1 + k = ss.length →
    h[r]? = some ⟨ss.take (idx + 1), bs.take (idx + 1)⟩ → ∃ h', wsumLoop ss bs k idx h r = .ok (r, h') ∧
      h'[r]? = some ⟨ss, bs⟩ ∧ h.length ≤ h'.length ∧ (∀ i, i < h.length → i ≠ r → h'[i]? = h[i]?) ∧
      (Reached h → Reached h')
  | 0, idx, h, r, hk, hr => by
    refine ⟨h, rfl, ?_, le_refl _, fun _ _ _ => rfl, id⟩
    rw [hr, List.take_of_length_le (by omega), List.take_of_length_le (by omega)]
  | k + 1, idx, h, r, hk, hr => by
    obtain ⟨x, hx⟩ : ∃ x, ss[idx + 1]? = some x := ⟨_, List.getElem?_eq_getElem (by omega)⟩
    obtain ⟨b, hb⟩ : ∃ b, bs[idx + 1]? = some b := ⟨_, List.getElem?_eq_getElem (by omega)⟩
    have hrl : r < h.length := (List.getElem?_eq_some_iff.mp hr).1
    simp only [wsumLoop, hx, hb, newExpr, bind_ok]
    let h1 : EHeap E := h ++ [⟨[x], [b]⟩]
    let h2 : EHeap E := h1.set r ⟨ss.take (idx + 1) ++ [x], bs.take (idx + 1) ++ [b]⟩
    have hadd : addExpr h1 r (.expr h.length) = .ok (r, h2) := by
      rw [addExpr_iff]
      exact ⟨rfl, ⟨ss.take (idx + 1), bs.take (idx + 1)⟩, ⟨[x], [b]⟩,
        by simp only [h1]; rw [List.getElem?_append_left hrl, hr], by simp [h1], rfl⟩
    change ∃ h', (do let (result', h2) ← addExpr h1 r (.expr h.length); wsumLoop ss bs k (idx + 1) h2 result') = _ ∧ _
    rw [hadd]
    simp only [bind_ok]
    have hlen : h2.length = h.length + 1 := by simp [h2, h1]
    obtain ⟨h', e1, e2, e3, e4, e5⟩ := wsumLoop_ok ss bs hl k (idx + 1) h2 r (by omega) (by
        simp only [h2]
        rw [List.getElem?_set_self (by simp [h1]; omega), List.take_succ (i := idx + 1), hx,
          List.take_succ (i := idx + 1), hb]
        rfl)
    refine ⟨h', e1, e2, ?_, fun i hi hne => ?_, fun hrch => ?_⟩
    · omega
    · rw [e4 i (by omega) hne, List.getElem?_set_ne (Ne.symm hne), List.getElem?_append_left hi]
    · exact e5 (.add r h.length (.mul _ _ hrch rfl) hadd)

end Zksk
