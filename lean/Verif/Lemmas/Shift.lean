import Verif.Lemmas.Decl

/-! Responses changed by multiples of the group order. -/

set_option linter.unusedSectionVars false

namespace Zksk

open Spec

variable {E : Type} [AddCommGroup E] [DecidableEq E]

/-- Add `n` to an integer value. -/
def Val.shift (n : Int) : Val E → Val E
  | .int k => .int (k + n)
  | v => v

theorem Val.shift_inj (n : Int) {a b : Val E} : Val.shift n a = Val.shift n b ↔ a = b := by
  constructor
  · cases a <;> cases b <;> simp [Val.shift]
  · rintro rfl; rfl

/-- Add a number depending on the key to all entries. -/
def shiftDict (σ : Store) (M : Key → Int) (d : Dict (Val E)) : Dict (Val E) :=
  d.map fun kv => (kv.1, Val.shift (M (σ.key kv.1)) kv.2)

theorem get?_shift (σ : Store) (M : Key → Int) : ∀ (d : Dict (Val E)) (s : Sec),
    Dict.get? σ (shiftDict σ M d) s = (Dict.get? σ d s).map (Val.shift (M (σ.key s)))
  | [], s => rfl
  | (k, v) :: d, s => by
    simp only [shiftDict, List.map_cons, Dict.get?]
    by_cases h : σ.key k = σ.key s
    · simp [h]
    · simp only [h, if_false]; exact get?_shift σ M d s

theorem set_shift (σ : Store) (M : Key → Int) : ∀ (d : Dict (Val E)) (s : Sec) (v : Val E),
    Dict.set σ (shiftDict σ M d) s (Val.shift (M (σ.key s)) v) = shiftDict σ M (Dict.set σ d s v)
  | [], s, v => rfl
  | (k, w) :: d, s, v => by
    simp only [shiftDict, List.map_cons, Dict.set]
    by_cases h : σ.key k = σ.key s
    · simp [h]
    · simp only [h, if_false, List.map_cons]
      have := set_shift σ M d s v
      simp only [shiftDict] at this
      rw [this]

theorem consistencyGo_shift {σ : Store} {M : Key → Int} {r r' : Val E} : ∀ (vs : List Sec) (i : Nat)
    (d : Dict (Val E)),
    (∀ j s, vs[j]? = some s → r'.index (i + j) = (r.index (i + j)).map (Val.shift (M (σ.key s)))) →
    DLRep.consistencyGo σ r' vs i (shiftDict σ M d) =
      (DLRep.consistencyGo σ r vs i d).map fun bd => (bd.1, shiftDict σ M bd.2)
  | [], i, d, h => rfl
  | s :: ss, i, d, h => by
    have h0 := h 0 s rfl
    simp only [Nat.add_zero] at h0
    have ih := fun d => consistencyGo_shift ss (i + 1) d fun j x hx => by
      have := h (j + 1) x hx
      rwa [show i + 1 + j = i + (j + 1) by omega]
    simp only [DLRep.consistencyGo, get?_shift]
    rw [h0]
    cases hd : Dict.get? σ d s with
    | none =>
      cases hr : r.index i with
      | error e => rfl
      | ok ri =>
        simp only [Option.map_none, Except.map, bind_ok]
        rw [set_shift]
        exact ih _
    | some v =>
      cases hr : r.index i with
      | error e => rfl
      | ok ri =>
        simp only [Option.map_some, Except.map, bind_ok]
        by_cases hv : ri = v
        · subst hv
          simp only [ne_eq, not_true_eq_false, if_false]
          exact ih _
        · have : Val.shift (M (σ.key s)) ri ≠ Val.shift (M (σ.key s)) v :=
            fun h => hv ((Val.shift_inj _).mp h)
          simp [hv, this]

theorem wsumGo_shift : ∀ (ws ws' : List Int) (ps : List (Pt E)) (acc : Pt E), ws'.length = ws.length →
    (∀ (i : Nat) (w : Int) (p : Pt E), ws[i]? = some w → ps[i]? = some p → ∃ n : Int, ws'[i]? = some (w + n) ∧ n • p.val = 0) →
    wsumGo acc (ws'.map Val.int) ps = wsumGo acc (ws.map Val.int) ps
  | [], ws', ps, acc, hl, h => by
    have : ws' = [] := List.length_eq_zero_iff.mp hl
    subst this; rfl
  | w :: ws, [], ps, acc, hl, h => by simp at hl
  | w :: ws, w' :: ws', [], acc, hl, h => by simp [wsumGo]
  | w :: ws, w' :: ws', p :: ps, acc, hl, h => by
    obtain ⟨n, h0, hn⟩ := h 0 w p rfl rfl
    simp only [List.getElem?_cons_zero, Option.some.injEq] at h0
    subst h0
    simp only [List.map_cons, wsumGo, Val.asInt, bind_ok]
    have hs : Pt.smul (w + n) p = Pt.smul w p := by
      simp only [Pt.smul, add_smul, hn, add_zero]
    rw [hs]
    cases acc.add (Pt.smul w p) with
    | error e => rfl
    | ok q =>
      simp only [bind_ok]
      exact wsumGo_shift ws ws' ps q (by simpa using hl) fun i w p hw hp => h (i + 1) w p hw hp

end Zksk
