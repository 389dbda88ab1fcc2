import Verif.Lemmas.Said
import Verif.Props.Complete

/-! # Property C92: what the precommitment of an or-proof says -/

namespace Zksk.Props

open Spec

variable {E : Type} [AddCommGroup E] [DecidableEq E]

/-- **C92** (violated) In every honest proof of a disjunction the clauses that are compositions of
representations are told apart by the precommitment: it has no entry for such a clause exactly if the clause
is the one that was really proved, which is the one with the non-positive sub-challenge.  The other clauses
can be of any kind. -/
theorem C92_composed_clause_shown (env : Env E) (s : Bool) (subs : List (Stmt E)) (d : Dict Int) (msg : String)
    (nizk : NIZK E) (t' : Stmt E) (w w' : World)
    (h : prove (LeafProver E) env (.or s subs) d msg w = .ok ((nizk, t'), w')) :
    ∃ (i : Nat) (u : Stmt E) (cs : List Int) (rs : List (Val E)),
      subs[i]? = some u ∧ u.simulated = false ∧
      (∃ (w1 w2 : World) (p : StmtProver E) (u' : Stmt E), PTree.getProver u d w1 = .ok ((some p, u'), w2)) ∧
      nizk.responses = .tuple [.list (cs.map Val.int), .list rs] ∧ OrSigns subs.length i nizk.challenge cs ∧
      ∀ (j : Nat) v, subs[j]? = some v → Unadorned v → Composed v →
        (saidOf nizk.precommitment j = .none ↔ j = i) := by
  obtain ⟨i, u, w1, w2, p, u', cs, rs, h1, h2, h3, h4, h5, h6⟩ := said_parts h
  refine ⟨i, u, cs, rs, h1, h2, ⟨w1, w2, p, u', h3⟩, h4, h5, fun j v hj hp hc => ⟨fun he => ?_, (h6 j v hj hp).1⟩⟩
  by_contra hne
  obtain ⟨x, xs, hx⟩ := (h6 j v hj hp).2 hne hc
  rw [hx] at he
  cases he

/-- **C92** (violated) Read the other way round: of a proof of a disjunction of compositions of
representations anybody can compute the proved clause from the precommitment alone, as the only clause
without an entry. -/
theorem C92_index_computed (env : Env E) (s : Bool) (subs : List (Stmt E)) (d : Dict Int) (msg : String)
    (nizk : NIZK E) (t' : Stmt E) (w w' : World)
    (h : prove (LeafProver E) env (.or s subs) d msg w = .ok ((nizk, t'), w'))
    (hp : ∀ t ∈ subs, Unadorned t ∧ Composed t) :
    ∃ i, (List.range subs.length).filter (fun j => (saidOf nizk.precommitment j).isNone) = [i] ∧
      ∃ (u : Stmt E) (w1 w2 : World) (p : StmtProver E) (u' : Stmt E) (cs : List Int) (rs : List (Val E)),
        subs[i]? = some u ∧ PTree.getProver u d w1 = .ok ((some p, u'), w2) ∧
        nizk.responses = .tuple [.list (cs.map Val.int), .list rs] ∧ OrSigns subs.length i nizk.challenge cs := by
  obtain ⟨i, u, cs, rs, h1, h2, ⟨w1, w2, p, u', h3⟩, h4, h5, h6⟩ := C92_composed_clause_shown env s subs d msg nizk t' w w' h
  refine ⟨i, ?_, u, w1, w2, p, u', cs, rs, h1, h3, h4, h5⟩
  have hi : i < subs.length := (List.getElem?_eq_some_iff.mp h1).1
  have : (List.range subs.length).filter (fun j => (saidOf nizk.precommitment j).isNone) =
      (List.range subs.length).filter (fun j => j == i) := by
    refine List.filter_congr fun j hj => ?_
    have hj := List.mem_range.mp hj
    have hm : subs[j] ∈ subs := List.getElem_mem hj
    have := h6 j subs[j] (List.getElem?_eq_getElem hj) (hp _ hm).1 (hp _ hm).2
    rw [Bool.eq_iff_iff, beq_iff_eq, ← this]
    cases saidOf nizk.precommitment j <;> simp [Val.isNone]
  rw [this, List.filter_beq, List.count_eq_one_of_mem List.nodup_range (List.mem_range.mpr hi)]
  rfl

/-- **C92** (what holds) The precommitment of a disjunction whose clauses are representations is missing, so
it says nothing.  The same holds for conjunctions of such parts.  Missing: disjunctions with composed clauses,
for which the claim is false by the theorems above. -/
theorem C92_representations_silent_partial (env : Env E) (t : Stmt E) (d : Dict Int) (msg : String)
    (nizk : NIZK E) (t' : Stmt E) (w w' : World) (ht : Unadorned t)
    (h : prove (LeafProver E) env t d msg w = .ok ((nizk, t'), w')) : nizk.precommitment = .none := by
  unfold prove at h
  obtain ⟨⟨p?, t1⟩, w1, h1, h⟩ := pm_bind.mp h
  cases p? with
  | none => exact (raise_ne.mp h).elim
  | some p =>
    simp only at h
    obtain ⟨⟨n, p'⟩, w2, h2, h⟩ := pm_bind.mp h
    rw [pm_pure_iff, Prod.mk.injEq, Prod.mk.injEq] at h
    obtain ⟨⟨rfl, _⟩, _⟩ := h
    unfold PTree.getNizkProof at h2
    obtain ⟨⟨v, p1⟩, w5, k1, h2⟩ := pm_bind.mp h2
    obtain ⟨⟨com, p2⟩, w6, k2, h2⟩ := pm_bind.mp h2
    simp only at h2 k2
    rw [pm_getStore_bind, pm_liftE_bind_iff] at h2
    obtain ⟨id, _, h2⟩ := h2
    rw [pm_liftE_bind_iff] at h2
    obtain ⟨c, _, h2⟩ := h2
    obtain ⟨r, w7, k3, h2⟩ := pm_bind.mp h2
    rw [pm_pure_iff, Prod.mk.injEq, Prod.mk.injEq] at h2
    obtain ⟨⟨rfl, rfl⟩, _⟩ := h2
    exact precommit_plain d ht _ _ _ _ h1 _ _ _ _ k1

/-! ### Concrete cases -/

/-- `(6 = x0·3 and 6 = x0·3) or (5 = x2·3 and 5 = x2·3)`. -/
def exPairs : List (Stmt (ZMod 7)) :=
  [.and false [.leaf (.dlrep Ex.rep2), .leaf (.dlrep Ex.rep2)], .and false [.leaf (.dlrep Ex.rep3), .leaf (.dlrep Ex.rep3)]]

theorem exPairs_plain : ∀ t ∈ exPairs, Unadorned t ∧ Composed t := by
  intro t ht
  simp only [exPairs, List.mem_cons, List.not_mem_nil, or_false] at ht
  rcases ht with rfl | rfl
  · exact ⟨.all _ _ fun t ht => by
      simp only [List.mem_cons, List.not_mem_nil, or_false, or_self] at ht; subst ht; exact .rep _, by simp [Composed]⟩
  · exact ⟨.all _ _ fun t ht => by
      simp only [List.mem_cons, List.not_mem_nil, or_false, or_self] at ht; subst ht; exact .rep _, by simp [Composed]⟩

/-- Somebody who knows only `x0`: no entry for the first clause, an entry for the second one. -/
example : ∃ nizk t' w', prove (LeafProver (ZMod 7)) (Ex.env 5) (.or false exPairs) [(0, 2)] "m"
      ⟨Ex.σ0, fun i => i + 40⟩ = .ok ((nizk, t'), w') ∧
    nizk.precommitment = .list [.none, .list [.none, .none]] :=
  ⟨_, _, _, rfl, rfl⟩

/-- Somebody who knows only `x2`. -/
example : ∃ nizk t' w', prove (LeafProver (ZMod 7)) (Ex.env 5) (.or false exPairs) [(2, 4)] "m"
      ⟨Ex.σ0, fun i => i + 41⟩ = .ok ((nizk, t'), w') ∧
    nizk.precommitment = .list [.list [.none, .none], .none] :=
  ⟨_, _, _, rfl, rfl⟩

/-- What is read off that precommitment. -/
example : (List.range 2).filter
    (fun j => (saidOf (.list [.list [.none, .none], .none] : Val (ZMod 7)) j).isNone) = [1] := by decide

/-- With bare clauses there is no precommitment. -/
example : ∃ nizk t' w', prove (LeafProver (ZMod 7)) (Ex.env 5)
      (.or false [.leaf (.dlrep Ex.rep2), .leaf (.dlrep Ex.rep3)]) [(2, 4)] "m"
      ⟨Ex.σ0, fun i => i + 40⟩ = .ok ((nizk, t'), w') ∧
    Unadorned (.or false [.leaf (.dlrep Ex.rep2), .leaf (.dlrep Ex.rep3)]) ∧ nizk.precommitment = .none :=
  ⟨_, _, _, rfl, .any _ _ fun t ht => by
    simp only [List.mem_cons, List.not_mem_nil, or_false] at ht
    rcases ht with rfl | rfl <;> exact ⟨_, rfl⟩, rfl⟩

end Zksk.Props
