import Verif.Lemmas.Expr
import Verif.Examples

/-! # C04, C05, C06, C46: expressions and generators -/

set_option linter.unusedSectionVars false

namespace Zksk.Props

open Spec

variable {E : Type} [AddCommGroup E] [DecidableEq E]

/-! ### C04 -/

/-- **C04** Evaluating the expression built by the Python text of a formula gives the value of the formula,
when every secret has a value and all bases share a group. -/
theorem C04_eval_value (f : Formula E) (h : EHeap E) (σ : Store) (v : Sec → Int) (g : Grp)
    (hv : ∀ x b, (x, b) ∈ f.products → σ.value x = some (v x) ∧ b.grp = g) :
    ∃ (r : Nat) (h' : EHeap E), f.run h = .ok (r, h') ∧ evalExpr σ h' r = .ok ⟨g, f.value v⟩ := by
  obtain ⟨r, h', e, h1, _, h2, h3, h4, _, _, _⟩ := formula_run f h
  refine ⟨r, h', h1, ?_⟩
  simp only [evalExpr, h2]
  rw [eval_ok (v := v) (g := g) ⟨by rw [h3, h4]; simp, ?_⟩, h3, h4, value_eq_sum]
  · intro x hx
    rw [h3] at hx
    obtain ⟨⟨y, b⟩, hy, rfl⟩ := List.mem_map.mp hx
    exact (hv y b hy).1
  · intro b hb
    rw [h4] at hb
    obtain ⟨⟨y, b⟩, hy, rfl⟩ := List.mem_map.mp hb
    exact (hv y b hy).2
  · rw [h3]
    intro h0
    have : f.products ≠ [] := by
      clear h0 h1 h2 h3 h4 hv
      induction f with
      | term x b => simp [Formula.products]
      | plus l r ihl _ => simp [Formula.products, ihl]
    exact this (List.map_eq_nil_iff.mp h0)

/-- **C04** `IncompleteValuesError` is raised exactly when some secret of the formula has no value. -/
theorem C04_eval_incomplete (f : Formula E) (h : EHeap E) (σ : Store) :
    ∃ (r : Nat) (h' : EHeap E), f.run h = .ok (r, h') ∧
      (evalExpr σ h' r = .error .incompleteValues ↔ ∃ x b, (x, b) ∈ f.products ∧ σ.value x = none) := by
  obtain ⟨r, h', e, h1, _, h2, h3, h4, _, _, _⟩ := formula_run f h
  refine ⟨r, h', h1, ?_⟩
  simp only [evalExpr, h2]
  rw [eval_incomplete, h3]
  constructor
  · rintro ⟨x, hx, hn⟩
    obtain ⟨⟨y, b⟩, hy, rfl⟩ := List.mem_map.mp hx
    exact ⟨y, b, hy, hn⟩
  · rintro ⟨x, b, hx, hn⟩
    exact ⟨x, List.mem_map.mpr ⟨(x, b), hx, rfl⟩, hn⟩

/-- **C04** `*` needs a secret and `+` a second expression: anything else raises `InvalidExpression`. -/
theorem C04_operands (h : EHeap E) (base : Pt E) (self : Nat) (a : Arg) :
    ((∀ x, a ≠ .secret x) → newExpr h a base = .error .invalidExpression) ∧
      ((∀ r, a ≠ .expr r) → addExpr h self a = .error .invalidExpression) := by
  cases a <;> simp [newExpr, addExpr]

example : addExpr ([⟨[0], [Ex.P 1]⟩] : EHeap (ZMod 7)) 0 (.secret 1) = .error .invalidExpression :=
  (C04_operands _ (Ex.P 1) 0 _).2 (by simp)

/-- **C04** The same for every expression object of every program, however it shares and re-uses
expressions: its value is the sum of value times base over its `secrets` and `bases`, and
`IncompleteValuesError` is raised exactly when one of its secrets has no value. -/
theorem C04_any_program (h : EHeap E) (hr : Reached h) (r : Nat) (e : EObj E) (he : h[r]? = some e) (σ : Store) :
    e.secrets.length = e.bases.length ∧
    (evalExpr σ h r = .error .incompleteValues ↔ ∃ x ∈ e.secrets, σ.value x = none) ∧
    (∀ (v : Sec → Int) (g : Grp), (∀ x ∈ e.secrets, σ.value x = some (v x)) → (∀ b ∈ e.bases, b.grp = g) →
      evalExpr σ h r = .ok ⟨g, ((e.secrets.zip e.bases).map fun p => v p.1 • p.2.val).sum⟩) := by
  have hf := reached_fine hr e (List.mem_of_getElem? he)
  simp only [evalExpr, he]
  exact ⟨hf.1, eval_incomplete, fun v g hv hg => eval_ok hf hv hg⟩

/-- `x0·1 + (x1·2 + x0·3)` in `ℤ/7ℤ` with `x0 = 2`, `x1 = 3`. -/
def exFormula : Formula (ZMod 7) :=
  .plus (.term 0 (Ex.P 1)) (.plus (.term 1 (Ex.P 2)) (.term 0 (Ex.P 3)))

example : ∃ (r : Nat) (h' : EHeap (ZMod 7)), exFormula.run [] = .ok (r, h') ∧
    evalExpr Ex.σ h' r = .ok (Ex.P 0) :=
  C04_eval_value exFormula [] Ex.σ (fun x => if x = 0 then 2 else 3) Ex.G (by
    intro x b hx
    simp only [exFormula, Formula.products, List.cons_append, List.nil_append, List.mem_cons,
      Prod.mk.injEq, List.not_mem_nil, or_false] at hx
    rcases hx with ⟨rfl, rfl⟩ | ⟨rfl, rfl⟩ | ⟨rfl, rfl⟩ <;> exact ⟨rfl, rfl⟩)

example : ∃ (r : Nat) (h' : EHeap (ZMod 7)), exFormula.run [] = .ok (r, h') ∧
    evalExpr Ex.σ0 h' r = .error .incompleteValues := ⟨_, _, rfl, rfl⟩

/-! ### C05 -/

/-- **C05** `wsum_secrets(secrets, bases)` returns a new expression with exactly the given lists, and leaves
existing expressions alone. -/
theorem C05_wsum_lists (h : EHeap E) (ss : List Sec) (bs : List (Pt E)) (hl : ss.length = bs.length)
    (hn : ss ≠ []) : ∃ (r : Nat) (h' : EHeap E), wsumSecrets h ss bs = .ok (r, h') ∧ h'[r]? = some ⟨ss, bs⟩ ∧
      h.length ≤ r ∧ (∀ i, i < h.length → h'[i]? = h[i]?) ∧ (Reached h → Reached h') := by
  have hpos : 0 < ss.length := List.length_pos_iff.mpr hn
  obtain ⟨x, hx⟩ : ∃ x, ss[0]? = some x := ⟨_, List.getElem?_eq_getElem hpos⟩
  obtain ⟨b, hb⟩ : ∃ b, bs[0]? = some b := ⟨_, List.getElem?_eq_getElem (by omega)⟩
  obtain ⟨h', e1, e2, e3, e4, e5⟩ := wsumLoop_ok ss bs hl (bs.length - 1) 0 (h ++ [⟨[x], [b]⟩]) h.length
    (by omega) (by
      simp only [List.getElem?_concat_length, Nat.zero_add, Option.some.injEq, EObj.mk.injEq]
      rw [List.take_succ (i := 0), hx, List.take_succ (i := 0), hb]
      simp)
  refine ⟨h.length, h', ?_, e2, le_refl _, fun i hi => ?_, fun hr => e5 (.mul x b hr rfl)⟩
  · simp only [wsumSecrets, hl, ne_eq, not_true_eq_false, if_false, hx, hb, newExpr, bind_ok, e1]
  · rw [e4 i (by simp; omega) (by omega), List.getElem?_append_left hi]

/-- **C05** It raises `ValueError` exactly when the lengths differ and `IndexError` exactly when both lists
are empty; no other exception is possible. -/
theorem C05_wsum_errors (h : EHeap E) (ss : List Sec) (bs : List (Pt E)) :
    (wsumSecrets h ss bs = .error .valueError ↔ ss.length ≠ bs.length) ∧
    (wsumSecrets h ss bs = .error .indexError ↔ ss = [] ∧ bs = []) ∧
    (∀ err, wsumSecrets h ss bs = .error err → err = .valueError ∨ err = .indexError) := by
  by_cases hl : ss.length = bs.length
  · by_cases hn : ss = []
    · subst hn
      have hb : bs = [] := List.length_eq_zero_iff.mp hl.symm
      subst hb
      simp [wsumSecrets]
    · obtain ⟨r, h', e, _⟩ := C05_wsum_lists h ss bs hl hn
      simp [e, hl, hn]
  · have : wsumSecrets h ss bs = .error .valueError := by simp [wsumSecrets, hl]
    rw [this]
    refine ⟨by simp [hl], ?_, by simp⟩
    simp only [Except.error.injEq, reduceCtorEq, false_iff]
    rintro ⟨rfl, rfl⟩
    exact hl rfl

example : ∃ (r : Nat) (h' : EHeap (ZMod 7)), wsumSecrets [] [0, 1, 0] [Ex.P 1, Ex.P 2, Ex.P 3] = .ok (r, h') ∧
    h'[r]? = some ⟨[0, 1, 0], [Ex.P 1, Ex.P 2, Ex.P 3]⟩ := ⟨_, _, rfl, rfl⟩
example : wsumSecrets ([] : EHeap (ZMod 7)) [0] [] = .error .valueError := rfl
example : wsumSecrets ([] : EHeap (ZMod 7)) [] [] = .error .indexError := rfl

/-! ### C06 -/

/-- **C06** (violated) In every program, `l + o` returns the object `l` itself and changes it: from then on
`l` denotes the sum. -/
theorem C06_left_operand_changed (h h' : EHeap E) (hr : Reached h) (l o r : Nat)
    (ha : addExpr h l (.expr o) = .ok (r, h')) :
    r = l ∧ ∃ a b, h[l]? = some a ∧ h[o]? = some b ∧
      h'[l]? = some ⟨a.secrets ++ b.secrets, a.bases ++ b.bases⟩ ∧ h'[l]? ≠ h[l]? := by
  obtain ⟨h1, a, b, ha', hb, rfl⟩ := addExpr_iff.mp ha
  clear ha
  rename' ha' => ha
  have hl : l < h.length := (List.getElem?_eq_some_iff.mp ha).1
  refine ⟨h1, a, b, ha, hb, List.getElem?_set_self hl, ?_⟩
  rw [List.getElem?_set_self hl, ha]
  intro he
  have := congrArg (fun e => e.secrets.length) (Option.some.inj he)
  simp only [List.length_append] at this
  have hf := (reached_fine hr b (List.mem_of_getElem? hb)).2
  exact hf (List.length_eq_zero_iff.mp (by omega))

/-- **C06** (violated) Consequence for statements: after `l + o` has been evaluated, a statement made from `l`
is no longer about `l` only; it has the secrets and bases of both. -/
theorem C06_statement_changed (h h' : EHeap E) (hr : Reached h) (l o r : Nat) (σ : Store) (y : Pt E)
    (sim : Bool) (s s' : DLRep E) (ha : addExpr h l (.expr o) = .ok (r, h'))
    (hs : dlrepOf σ h y (.expr l) sim = .ok s) (hs' : dlrepOf σ h' y (.expr l) sim = .ok s') :
    ∃ b, h[o]? = some b ∧ s'.secretVars = s.secretVars ++ b.secrets ∧ s'.bases = s.bases ++ b.bases ∧
      s' ≠ s := by
  obtain ⟨_, a, b, h1, h2, h3, _⟩ := C06_left_operand_changed h h' hr l o r ha
  have key : ∀ (ss : List Sec) (bs : List (Pt E)) (u : DLRep E), mkDLRep σ y ss bs sim = .ok u →
      u.secretVars = ss ∧ u.bases = bs := by
    intro ss bs u hu
    unfold mkDLRep at hu
    split at hu
    · cases hu
    · split at hu
      · cases hu
      · cases hu; exact ⟨rfl, rfl⟩
  simp only [dlrepOf, h1, h3] at hs hs'
  obtain ⟨k1, k2⟩ := key _ _ _ hs
  obtain ⟨m1, m2⟩ := key _ _ _ hs'
  refine ⟨b, h2, by rw [m1, k1], by rw [m2, k2], fun he => ?_⟩
  subst he
  rw [m1] at k1
  have hf := (reached_fine hr b (List.mem_of_getElem? h2)).2
  exact hf (by simpa using k1)

/-- **C06** What remains true: `l + o` changes no expression but `l`.  Missing: `l` itself, see
`C06_left_operand_changed`. -/
theorem C06_others_unchanged_partial (h h' : EHeap E) (l o r : Nat)
    (ha : addExpr h l (.expr o) = .ok (r, h')) :
    h'.length = h.length ∧ ∀ i, i ≠ l → h'[i]? = h[i]? := by
  obtain ⟨_, a, b, ha, hb, rfl⟩ := addExpr_iff.mp ha
  exact ⟨by simp, fun i hi => List.getElem?_set_ne (Ne.symm hi)⟩

/-- **C06** What remains true: a formula in which every sub-expression is written out, and none is taken from
a variable, has exactly the terms of the formula in order, and changes none of the existing expressions. -/
theorem C06_written_out_partial (f : Formula E) (h : EHeap E) : ∃ (r : Nat) (h' : EHeap E) (e : EObj E),
    f.run h = .ok (r, h') ∧ h'[r]? = some e ∧ e.secrets = f.products.map Prod.fst ∧
      e.bases = f.products.map Prod.snd ∧ ∀ i, i < h.length → h'[i]? = h[i]? := by
  obtain ⟨r, h', e, h1, _, h2, h3, h4, _, h5, _⟩ := formula_run f h
  exact ⟨r, h', e, h1, h2, h3, h4, h5⟩

/-- `e = x0·1; f = x1·2; e + f`: a statement `6 = e` made afterwards asks for `6 = x0·1 + x1·2`. -/
example : ∃ h1 h2 h3 s s', newExpr ([] : EHeap (ZMod 7)) (.secret 0) (Ex.P 1) = .ok (0, h1) ∧
    newExpr h1 (.secret 1) (Ex.P 2) = .ok (1, h2) ∧ addExpr h2 0 (.expr 1) = .ok (0, h3) ∧ Reached h2 ∧
    dlrepOf Ex.σ h2 (Ex.P 6) (.expr 0) false = .ok s ∧ dlrepOf Ex.σ h3 (Ex.P 6) (.expr 0) false = .ok s' ∧
    s.secretVars = [0] ∧ s'.secretVars = [0, 1] :=
  ⟨_, _, _, _, _, rfl, rfl, rfl, .mul 1 (Ex.P 2) (.mul 0 (Ex.P 1) .start rfl) rfl, rfl, rfl, rfl, rfl⟩

/-! ### C46 -/

/-- **C46** With an integer seed, `make_generators` draws no randomness and returns the points obtained from
`seed`, `seed + 1`, …, in this order. -/
theorem C46_generators (pe : PointEnv E) (n : Nat) (g : Grp) (bits : Nat) (seed : Int) (w : World) :
    ∃ ps, makeGenerators pe n g bits (some seed) w = .ok (ps, w) ∧ ps.length = n ∧
      ∀ i, i < n → ∃ p, ps[i]? = some p ∧ getRandomPoint pe g bits (some (seed + i)) w = .ok (p, w) := by
  have key : ∀ (k i : Nat), ∃ ps, makeGeneratorsGo pe g bits (some seed) k i w = .ok (ps, w) ∧ ps.length = k ∧
      ∀ j, j < k → ∃ p, ps[j]? = some p ∧
        getRandomPoint pe g bits (some (seed + ((i + j : Nat) : Int))) w = .ok (p, w) := by
    intro k
    induction k with
    | zero => intro i; exact ⟨[], rfl, rfl, by simp⟩
    | succ k ih =>
      intro i
      obtain ⟨ps, h1, h2, h3⟩ := ih (i + 1)
      obtain ⟨p, hp⟩ : ∃ p, getRandomPoint pe g bits (some (seed + (i : Int))) w = .ok (p, w) := ⟨_, rfl⟩
      refine ⟨p :: ps, ?_, by simp [h2], fun j hj => ?_⟩
      · simp only [makeGeneratorsGo, Option.map_some]
        rw [pm_bind_eq hp, pm_bind_eq h1]; rfl
      · cases j with
        | zero => exact ⟨p, rfl, hp⟩
        | succ j =>
          obtain ⟨q, hq1, hq2⟩ := h3 j (by omega)
          exact ⟨q, hq1, by rw [← hq2]; congr 3; omega⟩
  obtain ⟨ps, h1, h2, h3⟩ := key n 0
  refine ⟨ps, h1, h2, fun i hi => ?_⟩
  obtain ⟨p, hp, hq⟩ := h3 i hi
  exact ⟨p, hp, by rw [← hq]; simp⟩

/-- **C46** Calls with the same seed agree on their common prefix, in any two runs. -/
theorem C46_prefix (pe : PointEnv E) (n m : Nat) (hnm : n ≤ m) (g : Grp) (bits : Nat) (seed : Int) (w w' : World)
    (ps qs : List (Pt E)) (hp : makeGenerators pe n g bits (some seed) w = .ok (ps, w))
    (hq : makeGenerators pe m g bits (some seed) w' = .ok (qs, w')) : ps = qs.take n := by
  obtain ⟨ps', h1, h2, h3⟩ := C46_generators pe n g bits seed w
  obtain ⟨qs', k1, k2, k3⟩ := C46_generators pe m g bits seed w'
  rw [hp] at h1; rw [hq] at k1
  simp only [Except.ok.injEq, Prod.mk.injEq, and_true] at h1 k1
  subst h1; subst k1
  refine List.ext_getElem? fun i => ?_
  by_cases hi : i < n
  · obtain ⟨p, e1, e2⟩ := h3 i hi
    obtain ⟨q, f1, f2⟩ := k3 i (by omega)
    rw [e1, List.getElem?_take_of_lt hi, f1]
    simp only [getRandomPoint, pm_pure_iff, Prod.mk.injEq, and_true] at e2 f2
    rw [← e2, ← f2]
  · rw [List.getElem?_eq_none (by omega), List.getElem?_eq_none (by rw [List.length_take]; omega)]

/-- **C46** Generator `i` for seed `s` is generator `0` for seed `s + i`: families of generators for nearby
seeds overlap. -/
theorem C46_overlap (pe : PointEnv E) (n m : Nat) (g : Grp) (bits : Nat) (seed : Int) (w w' : World) (i : Nat)
    (hi : i < n) (hm : 0 < m)
    (ps qs : List (Pt E)) (hp : makeGenerators pe n g bits (some seed) w = .ok (ps, w))
    (hq : makeGenerators pe m g bits (some (seed + i)) w' = .ok (qs, w')) : ps[i]? = qs[0]? := by
  obtain ⟨ps', h1, h2, h3⟩ := C46_generators pe n g bits seed w
  obtain ⟨qs', k1, k2, k3⟩ := C46_generators pe m g bits (seed + i) w'
  rw [hp] at h1; rw [hq] at k1
  simp only [Except.ok.injEq, Prod.mk.injEq, and_true] at h1 k1
  subst h1; subst k1
  obtain ⟨p, e1, e2⟩ := h3 i hi
  obtain ⟨q, f1, f2⟩ := k3 0 hm
  rw [e1, f1]
  simp only [getRandomPoint, pm_pure_iff, Prod.mk.injEq, and_true] at e2 f2
  rw [← e2, ← f2]
  simp

/-- **C46** The point is hashed from the least number of bytes that has at least `bits` bits: from fresh random bytes
if there is no seed, from the beginning of the digest of the seed otherwise. -/
theorem C46_bytes (pe : PointEnv E) (g : Grp) (bits : Nat) (seed : Option Int) (w w' : World) (p : Pt E)
    (h : getRandomPoint pe g bits seed w = .ok (p, w')) :
    ∃ k, bits ≤ 8 * k ∧ 8 * k < bits + 8 ∧
      (seed = none → ∃ x : Int, 0 ≤ x ∧ x < 256 ^ k ∧ p = pe.hashToPoint g (pe.tokenBytes k x)) ∧
      ∀ s, seed = some s → w' = w ∧ p = pe.hashToPoint g ((pe.sha512 (pe.format s)).take k) := by
  refine ⟨(bits + 7) / 8, by omega, by omega, ?_, ?_⟩
  · rintro rfl
    simp only [getRandomPoint] at h
    obtain ⟨x, w1, h1, h⟩ := pm_bind.mp h
    rw [pm_pure_iff, Prod.mk.injEq] at h
    obtain ⟨_, h2, h3, _⟩ := draw_ok h1
    exact ⟨x, h2, by exact_mod_cast h3, h.1.symm⟩
  · rintro s rfl
    simp only [getRandomPoint, pm_pure_iff, Prod.mk.injEq] at h
    exact ⟨h.2.symm, h.1.symm⟩

/-- A toy hash-to-point function. -/
def exPointEnv : PointEnv (ZMod 7) where
  sha512 b := b ++ b
  format s := [s.toNat.toUInt8]
  hashToPoint g b := ⟨g, ((b.headD 0).toNat : ZMod 7)⟩
  tokenBytes _ _ := []

example : ∃ ps, makeGenerators exPointEnv 3 Ex.G 256 (some 42) ⟨Ex.σ, fun i => i⟩ = .ok (ps, ⟨Ex.σ, fun i => i⟩) ∧
    ps = [Ex.P 0, Ex.P 1, Ex.P 2] := ⟨_, rfl, by decide⟩

/-- 12 bits need two bytes. -/
example : ∃ p w', getRandomPoint exPointEnv Ex.G 12 none ⟨Ex.σ, fun i => i⟩ = .ok (p, w') := ⟨_, _, rfl⟩

end Zksk.Props
