import Verif.SpecStmt

/-!
# Specification: changing the responses of a proof without knowing the secrets

What somebody who sees a proof can do to it: add multiples of a number `M` (think of the order of the
group) to the responses, and multiples of `M · 2^128` to the sub-challenges of disjunctions.
-/

namespace Zksk.Spec

variable {E : Type} [AddCommGroup E]

/-- The responses `r'` are the responses `r` of statement `k` after
* adding `M · m x` to the response of each secret `x`, for every occurrence of `x` the same; inside an
  or-clause `m` may be another one;
* adding multiples of `M · 2^128` to the sub-challenges of disjunctions. -/
inductive Raised (σ : Store) (M : Int) : Core E → Val E → (Key → Int) → Val E → Prop
  | rep (s : DLRep E) (r : Val E) (m : Key → Int) (ws : List Int)
      (hl : ws.length = s.secretVars.length)
      (h : ∀ (i : Nat) (x : Sec), s.secretVars[i]? = some x →
        ∃ y : Int, r.index i = .ok (.int y) ∧ ws[i]? = some (y + M * m (σ.key x))) :
      Raised σ M (.leaf s) r m (.list (ws.map .int))
  | all (sim : Bool) (subs : List (Core E)) (r : Val E) (m : Key → Int) (ri : Nat → Val E)
      (rs' : List (Val E)) (hl : rs'.length = subs.length)
      (hri : ∀ i, i < subs.length → r.index i = .ok (ri i))
      (h : ∀ (i : Nat) (t : Core E) (r' : Val E), subs[i]? = some t → rs'[i]? = some r' →
        Raised σ M t (ri i) m r') :
      Raised σ M (.and sim subs) r m (.list rs')
  | any (sim : Bool) (subs : List (Core E)) (r rs : Val E) (m : Key → Int) (mi : Nat → Key → Int)
      (ri : Nat → Val E) (cs cs' : List Int) (rs' : List (Val E))
      (hl : rs'.length = subs.length)
      (hcs : r.index 0 = .ok (.list (cs.map .int))) (hrs : r.index 1 = .ok rs)
      (hl' : cs'.length = cs.length)
      (hc : ∀ (i : Nat) (c : Int), cs[i]? = some c → ∃ n : Int, cs'[i]? = some (c + M * 2 ^ 128 * n))
      (hri : ∀ i, i < subs.length → rs.index i = .ok (ri i))
      (h : ∀ (i : Nat) (t : Core E) (r' : Val E), subs[i]? = some t → rs'[i]? = some r' →
        Raised σ M t (ri i) (mi i) r') :
      Raised σ M (.or sim subs) r m (.tuple [.list (cs'.map .int), .list rs'])

end Zksk.Spec
