import Verif.Lemmas.ObjectsRetry
import Verif.Props.Objects

/-! # C81: failed attempts to prove a statement -/

set_option linter.unusedSectionVars false

namespace Zksk.Props

open Spec Share

variable {E : Type} [AddCommGroup E] [DecidableEq E]

/-- The functions with effects that stay when they raise return and raise what the other ones do. -/
theorem C81_same_results (env : Env E) (h : Objects E) (r : Nat) (d : Dict Int) (msg : String) (w : World) :
    (∀ p h' w', Objects.tryProver r d (h, w) = (.ok p, (h', w')) ↔ h.proverOf r d w = .ok ((p, h'), w')) ∧
    (∀ x, (Objects.tryProver r d (h, w)).1 = .error x ↔ h.proverOf r d w = .error x) ∧
    (∀ π h' w', Objects.tryProve env r d msg (h, w) = (.ok π, (h', w')) ↔ h.prove env r d msg w = .ok ((π, h'), w')) ∧
    ∀ x, (Objects.tryProve env r d msg (h, w)).1 = .error x ↔ h.prove env r d msg w = .error x := by
  have key : ∀ {α : Type} (y : KM E α), (∀ a h' w', y (h, w) = (.ok a, (h', w')) ↔ forget y h w = .ok ((a, h'), w')) ∧
      ∀ x, (y (h, w)).1 = .error x ↔ forget y h w = .error x := by
    intro α y
    unfold forget
    rcases y (h, w) with ⟨e | a, h1, w1⟩
    · exact ⟨fun a h' w' => by simp, fun x => by simp⟩
    · refine ⟨fun a h' w' => ?_, fun x => by simp⟩
      simp only [Prod.mk.injEq, Except.ok.injEq]
      tauto
  have k1 := key (Objects.tryProver r d : KM E _)
  have k2 := key (Objects.tryProve env r d msg : KM E _)
  rw [forget_prover] at k1
  rw [forget_prove] at k2
  exact ⟨k1.1, k1.2, k2.1, k2.2⟩

/-- **C81** (partial) What is missing: disjunctions, see `C81_violated`.  After any number of failed attempts to prove a
statement without disjunctions, in which values were missing, `prove()` with the values of all its secrets succeeds,
and the proof is accepted.  (The conditions speak of the secrets as they were before the attempts.) -/
theorem C81_or_free_partial (env : Env E) (h h' : Objects E) (r : Nat) (t : Core E) (hr : h.tree r = some t) (hf : OrFree t)
    (w w' : World) (ds : List (Dict Int)) (hatt : FailedAttempts r ds (h, w) (h', w')) (d : Dict Int)
    (hds : ∀ d0 ∈ ds, ∀ x v, (x, v) ∈ d0 → ∃ v', (x, v') ∈ d)
    (msg : String) (X : Key → Int) (hs : Solid t) (ht : Torsion t) (hd : d.Uniq (heapFor w.store d t))
    (hX : Satisfied (heapFor w.store d t) d X t) (hc : Composable (heapFor w.store d t) t)
    (hsup : Supplied (heapFor w.store d t) d t) :
    ∃ π h'' w'', h'.prove env r d msg w' = .ok ((π, h''), w'') ∧ h''.verify env w''.store r π msg = .ok true := by
  have hh := attempts_heap hr hatt hds
  simp only at hh
  exact C79_or_free_partial env h h' r t hr hf (Calls.imp (fun _ _ _ => trivial) (fun _ _ f => f.elim) (attempts_calls hatt))
    d w' msg X hs ht (by rw [hh]; exact hd) (by rw [hh]; exact hX) (by rw [hh]; exact hc) (by rw [hh]; exact hsup)

/-- `c.prove({x0: 2})` for `c = And(a, b)` of the example of C78 raises `ValueError`, the value of `x1` being missing;
`c.prove({x0: 2, x1: 3, x2: 4})` then succeeds. -/
example (rng : Nat → Nat) : ∃ h' w', FailedAttempts 4 [[(0, 2)]] (exObjs, ⟨Ex.σ, rng⟩) (h', w') ∧
    ∃ π h'' w'', h'.prove (Ex.env 3) 4 exDict "m" w' = .ok ((π, h''), w'') ∧ h''.verify (Ex.env 3) w''.store 4 π "m" = .ok true := by
  have hatt : ∃ s', FailedAttempts 4 [[(0, 2)]] (exObjs, ⟨Ex.σ, rng⟩) s' :=
    ⟨_, .prove (Ex.env 3) [(0, 2)] [] "" .valueError _ _ _ rfl (.none _)⟩
  obtain ⟨⟨h', w'⟩, hatt⟩ := hatt
  refine ⟨h', w', hatt, ?_⟩
  have hh : heapFor Ex.σ exDict exBoth = Ex.σ := exHeap
  obtain ⟨g1, g2, g3, g4⟩ := exOr_facts
  have hX : Satisfied Ex.σ exDict exVal exBoth := by
    cases g3 with
    | any _ _ h => exact h exBoth (by simp) rfl
  have hc : Composable Ex.σ exBoth := by
    cases g4 with
    | or _ _ _ h => exact h exBoth (by simp)
  have hsup : Supplied Ex.σ exDict exBoth := by
    refine .all _ _ fun t ht => ?_
    simp only [List.mem_cons, List.not_mem_nil, or_false] at ht
    rcases ht with rfl | rfl <;> exact .rep _ (by decide)
  refine C81_or_free_partial (Ex.env 3) exObjs h' 4 exBoth rfl ?_ ⟨Ex.σ, rng⟩ w' [[(0, 2)]] hatt exDict ?_ "m" exVal ?_ ?_ ?_
    (by simp only [hh]; exact hX) (by simp only [hh]; exact hc) (by simp only [hh]; exact hsup)
  · refine .all _ _ fun t ht => ?_
    simp only [List.mem_cons, List.not_mem_nil, or_false] at ht
    rcases ht with rfl | rfl <;> exact .rep _
  · intro d0 hd0 x v hx
    simp only [List.mem_singleton] at hd0
    subst hd0
    simp only [List.mem_singleton, Prod.mk.injEq] at hx
    obtain ⟨rfl, rfl⟩ := hx
    exact ⟨2, by decide⟩
  · simp [exBoth, Solid, SolidL, Ex.rep1, Ex.rep2, Ex.P, Ex.G]
  · intro x b hx
    exact g2 x b (by simp only [terms, termsL, List.mem_append]; exact .inl hx)
  · simp only [hh, exDict, Dict.Uniq]; decide

/-- **C81** Fails, for every disjunction of representations: once `get_prover()` has returned no prover, because for no
clause the values were given, it never returns one again, and `prove()` raises `AttributeError`, whatever values are
given.  (Looking for a prover marks the clauses, `zksk/primitives/dlrep.py:126`.) -/
theorem C81_or_is_dead (h h' : Objects E) (r : Nat) (b : Bool) (ss : List (DLRep E))
    (hr : h.tree r = some (.or b (ss.map .leaf))) (d : Dict Int) (w w' : World)
    (he : Objects.tryProver r d (h, w) = (.ok none, (h', w'))) (env : Env E) (d1 : Dict Int) (msg : String) (w1 : World) :
    (∃ w2, h'.proverOf r d1 w1 = .ok ((none, h'), w2)) ∧ h'.prove env r d1 msg w1 = .error .attributeError := by
  obtain ⟨l, rs, ho, hl, hrep⟩ := read_any_reps hr
  have hleft : Left (Reaches h r) h h' := by
    have := left_prover r d (h, w)
    rwa [he] at this
  have ho' : h'.objs[r]? = some (.any l b) := by
    rcases hleft.objs r with e | ⟨_, _, _, _, _, _, e, _⟩
    · exact e.trans ho
    · rw [ho] at e; cases e
  refine any_dead ho' (hleft.lists ▸ hl) ?_ env d1 msg w1
  cases b with
  | true => exact .inl rfl
  | false => exact .inr (declined_used ho hl hrep he)

/-- `p = DLRep(6, x0·3)`, `r = DLRep(5, x1·3)`, the copies of them, and `p | r`. -/
def exAlt : Objects (ZMod 7) where
  objs := [.rep (Ex.P 6) [Ex.P 3] [0] 0 false, .rep (Ex.P 5) [Ex.P 3] [1] 1 false,
    .rep (Ex.P 6) [Ex.P 3] [0] 0 false, .rep (Ex.P 5) [Ex.P 3] [1] 1 false, .any 0 false]
  dicts := [[], []]
  lists := [[2, 3]]

/-- They are made by the constructors. -/
example : (do
    let σ : Store := { σ4 with value := fun _ => none }
    let (p, h) ← Objects.newRep σ ⟨[], [], []⟩ (Ex.P 6) [0] [Ex.P 3] false
    let (r, h) ← h.newRep σ (Ex.P 5) [1] [Ex.P 3] false
    h.opOr p r) = .ok (4, exAlt) := rfl

/-- **C81** Fails: `(p | r).prove({})` raises `AttributeError`, and so does `(p | r).prove({x0: 2, x1: 4})` afterwards,
though these are the right values for both clauses, and without the first call there would have been an
accepted proof. -/
theorem C81_violated : ∃ (h h1 : Objects (ZMod 7)) (r : Nat) (d : Dict Int) (w w1 : World),
    FailedAttempts r [[]] (h, w) (h1, w1) ∧ (∀ env msg, h1.prove env r d msg w1 = .error .attributeError) ∧
    ∀ env msg, ∃ π h2 w2, h.prove env r d msg w = .ok ((π, h2), w2) ∧ h2.verify env w2.store r π msg = .ok true := by
  have hq : ∃ s, Objects.tryProver 4 [] (exAlt, ⟨σ4, fun i => i⟩) = (.ok none, s) := ⟨_, rfl⟩
  obtain ⟨⟨h1, w1⟩, he⟩ := hq
  refine ⟨exAlt, h1, 4, [(0, 2), (1, 4)], ⟨σ4, fun i => i⟩, w1, .declines _ _ _ _ _ he (.none _), fun env msg => ?_, fun env msg => ?_⟩
  · exact (C81_or_is_dead exAlt h1 4 false [⟨Ex.P 6, [Ex.P 3], [0], [], false⟩, ⟨Ex.P 5, [Ex.P 3], [1], [], false⟩] rfl []
      ⟨σ4, fun i => i⟩ w1 he env _ msg w1).2
  · have hterm : ∀ x b, (x, b) ∈ terms (.or false [.leaf ⟨Ex.P 6, [Ex.P 3], [0], [], false⟩,
        .leaf ⟨Ex.P 5, [Ex.P 3], [1], [], false⟩] : Core (ZMod 7)) → b.grp = Ex.G ∧ (7 : Int) • b.val = 0 := by
      intro x b hx
      simp only [terms, termsL, List.zip_cons_cons, List.zip_nil_right,
        List.cons_append, List.nil_append, List.append_nil, List.mem_cons, Prod.mk.injEq,
        List.not_mem_nil, or_false] at hx
      rcases hx with ⟨_, rfl⟩ | ⟨_, rfl⟩ <;> exact ⟨rfl, by decide⟩
    obtain ⟨π, h2, w2, e1, _, e2, _⟩ := C78_prove_succeeds env exAlt 4 _ rfl [(0, 2), (1, 4)] ⟨σ4, fun i => i⟩ msg
      (fun κ => if κ.1 = "x0" then 2 else 4) (by simp [Solid, SolidL, Ex.P, Ex.G])
      (fun x b hx => by obtain ⟨f1, f2⟩ := hterm x b hx; rw [f1]; exact f2)
      (by simp only [Dict.Uniq]; decide)
      (by
        refine .any _ ⟨_, List.mem_cons_self .., rfl⟩ fun t ht hu => ?_
        simp only [List.mem_cons, List.not_mem_nil, or_false] at ht
        rcases ht with rfl | rfl <;> exact .rep _ (by decide) (.rep _ _ (by decide) (by decide)))
      (by
        refine .or _ _ (fun x b y c hx hy _ => by rw [(hterm x b hx).1, (hterm y c hy).1]) fun t ht => ?_
        simp only [List.mem_cons, List.not_mem_nil, or_false] at ht
        rcases ht with rfl | rfl <;> exact .leaf _)
    exact ⟨π, h2, w2, e1, e2⟩

end Zksk.Props
