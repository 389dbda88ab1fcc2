import Verif.Lemmas.ObjectsKeep
import Verif.Props.Complete

/-! # C78 – C80: statement objects that share parts -/

set_option linter.unusedSectionVars false

namespace Zksk.Props

open Spec Share

variable {E : Type} [AddCommGroup E] [DecidableEq E]

/-! ### C78: sharing is harmless for the statements themselves, and for the first proof -/

/-- **C78** `DLRep(...)`, `And(...)`, `Or(...)`, `&` and `|` on objects make the statement that they would make if
nothing were shared, and leave the statements there were before as they are. -/
theorem C78_compose (h : Objects E) :
    (∀ (σ : Store) (lhs : Pt E) (xs : List Sec) (bases : List (Pt E)) (b : Bool),
      (h.newRep σ lhs xs bases b).map (fun x => x.2.tree x.1) = (mkDLRep σ lhs xs bases b).map (fun s => some (.leaf s))) ∧
    (∀ (rs : List Nat) (ts : List (Core E)), rs.map h.tree = ts.map some →
      (h.newAll rs).map (fun x => x.2.tree x.1) = (mkAnd ts).map some ∧
      (h.newAny rs).map (fun x => x.2.tree x.1) = (mkOr ts).map some) ∧
    (∀ (a b : Nat) (s t : Core E), h.tree a = some s → h.tree b = some t →
      (h.opAnd a b).map (fun x => x.2.tree x.1) = (opAnd s t).map some ∧
      (h.opOr a b).map (fun x => x.2.tree x.1) = (opOr s t).map some) ∧
    ∀ (r : Nat) (h' : Objects E), (∃ rs, h.newAll rs = .ok (r, h')) ∨ (∃ rs, h.newAny rs = .ok (r, h')) ∨
        (∃ a b, h.opAnd a b = .ok (r, h')) ∨ (∃ a b, h.opOr a b = .ok (r, h')) ∨
        (∃ σ lhs xs bases b, h.newRep σ lhs xs bases b = .ok (r, h')) →
      ∀ q t, h.tree q = some t → h'.tree q = some t := by
  refine ⟨fun σ lhs xs bases b => newRep_reads h, fun rs ts hts => ⟨(newAll_reads hts).1, (newAny_reads hts).1⟩,
    fun a b s t ha hb => ⟨opAnd_reads ha hb, opOr_reads ha hb⟩, fun r h' he q t hq => ?_⟩
  have key : ∀ (mk : Nat → Bool → Obj E) rs, Objects.compose mk h rs = .ok (r, h') → h'.tree q = some t :=
    fun mk rs e => compose_keeps e hq
  rcases he with ⟨rs, e⟩ | ⟨rs, e⟩ | ⟨a, b, e⟩ | ⟨a, b, e⟩ | ⟨σ, lhs, xs, bases, b, e⟩
  · exact key _ _ e
  · exact key _ _ e
  · exact key _ _ e
  · exact key _ _ e
  · exact newRep_keeps e hq

/-- **C78** Whatever is called on statement objects, each of them remains the same statement (same points, same
secrets, same composition), and `verify` of it gives the same result for every proof. -/
theorem C78_calls_keep_statements (h h' : Objects E) (hc : Calls (fun _ _ => True) (fun _ _ => True) h h')
    (q : Nat) (t : Core E) (ht : h.tree q = some t) :
    ∃ t', h'.tree q = some t' ∧ shape t' = shape t ∧ secrets t' = secrets t ∧
      ∀ (env : Env E) (σ : Store) (π : NIZK E) (msg : String), h'.verify env σ q π msg = h.verify env σ q π msg := by
  obtain ⟨t', h1, h2⟩ := tree_grown (M := True) (N := True) (grown_calls hc) ht
    (fun _ _ _ _ _ => ⟨fun _ => trivial, fun _ => trivial⟩)
  obtain ⟨b1, b2⟩ := shape_blank _ _ (alike_blank h2)
  refine ⟨t', h1, b1, b2, fun env σ π msg => ?_⟩
  unfold Objects.verify
  rw [h1, ht]
  have b3 : coreVars t' = coreVars t := b2
  exact verify_core_transfer env b1 (by rw [b3]; exact samePattern_same _) (by rw [b3]; exact samePattern_same _) π msg

/-- **C78** Completeness does not need separate objects: a statement object which obeys the composition rules and
whose unmarked part is made true by the given values can be proved, whatever parts it shares with itself or with
other objects, and the proof is accepted by everybody who builds the same statement. -/
theorem C78_prove_succeeds (env : Env E) (h : Objects E) (r : Nat) (t : Core E) (hr : h.tree r = some t) (d : Dict Int)
    (w : World) (msg : String) (X : Key → Int) (hs : Solid t) (ht : Torsion t) (hd : d.Uniq (heapFor w.store d t))
    (hX : Satisfied (heapFor w.store d t) d X t) (hc : Composable (heapFor w.store d t) t) :
    ∃ π h' w', h.prove env r d msg w = .ok ((π, h'), w') ∧ w'.store = heapFor w.store d t ∧
      h'.verify env w'.store r π msg = .ok true ∧
      ∀ (σv : Store) (tv : Core E), shape tv = shape t → SeesAs (heapFor w.store d t) (secrets t) σv (secrets tv) →
        verify env σv tv π msg = .ok true := by
  obtain ⟨π, h', w', h1, h2, h3⟩ := prove_satisfied env msg hr hs ht hd hX hc
  refine ⟨π, h', w', h1, h2, ?_, fun σv tv hsh hsee => verify_weaken env hsh hsee (h2 ▸ h3)⟩
  obtain ⟨_, _, _, _, h4⟩ := C78_calls_keep_statements h h'
    (.more _ _ _ [r] [] (.prove env r d msg w w' π h' h1) (fun _ _ => trivial) (fun _ _ => trivial) (.none h')) r t hr
  rw [h4]
  unfold Objects.verify
  rw [hr]
  exact h3

/-! The objects of the examples: `a = DLRep(1, x0·1 + x1·2)`, `b = DLRep(6, x0·3)`, `c = And(a, b)`, `s = Or(c, c)`;
the two clauses of `s` have the same list of parts. -/

/-- Objects 0, 1 are `a`, `b`; 2, 3 are the copies of them in `c`; 4 is `c`; 5, 6 are the copies of it in `s`; 7 is `s`. -/
def exObjs : Objects (ZMod 7) where
  objs := [.rep (Ex.P 1) [Ex.P 1, Ex.P 2] [0, 1] 0 false, .rep (Ex.P 6) [Ex.P 3] [0] 1 false,
    .rep (Ex.P 1) [Ex.P 1, Ex.P 2] [0, 1] 0 false, .rep (Ex.P 6) [Ex.P 3] [0] 1 false, .all 0 false,
    .all 0 false, .all 0 false, .any 1 false]
  dicts := [[], []]
  lists := [[2, 3], [5, 6]]

/-- They are made by the constructors. -/
example : (do
    let (a, h) ← Objects.newRep Ex.σ0 ⟨[], [], []⟩ (Ex.P 1) [0, 1] [Ex.P 1, Ex.P 2] false
    let (b, h) ← h.newRep Ex.σ0 (Ex.P 6) [0] [Ex.P 3] false
    let (c, h) ← h.newAll [a, b]
    h.newAny [c, c]) = .ok (7, exObjs) := rfl

/-- The conjunction of the examples. -/
def exBoth : Core (ZMod 7) := .and false [.leaf Ex.rep1, .leaf Ex.rep2]

theorem exObjs_tree : exObjs.tree 7 = some (.or false [exBoth, exBoth]) := rfl

example : (exObjs.newAll [4, 0]).map (fun x => x.2.tree x.1) = (mkAnd [exBoth, .leaf Ex.rep1]).map some :=
  ((C78_compose exObjs).2.1 [4, 0] [exBoth, .leaf Ex.rep1] rfl).1

/-- Helper: the rules for a conjunction, by running the check. -/
theorem and_rules {σ : Store} {b : Bool} {ts : List (Core E)} (hs : Solid (.and b ts))
    (hv : Tree.validateComposition σ (.and b ts) = .ok ()) : SameOrders σ (.and b ts) ∧ OrsPrivate σ (.and b ts) := by
  rcases validate_and_cases σ b ts (wf_of_solid hs) with ⟨h, _⟩ | ⟨h, _⟩ | ⟨_, h⟩
  · rw [hv] at h; cases h
  · rw [hv] at h; cases h
  · exact h

/-- The facts about the statement `s` that proofs need. -/
theorem exOr_facts : Solid (.or false [exBoth, exBoth]) ∧ Torsion (.or false [exBoth, exBoth]) ∧
    Satisfied Ex.σ exDict exVal (.or false [exBoth, exBoth]) ∧ Composable Ex.σ (.or false [exBoth, exBoth]) := by
  have hleaf : ∀ s ∈ [Ex.rep1, Ex.rep2], Satisfied Ex.σ exDict exVal (.leaf s) := by
    intro s hs
    simp only [List.mem_cons, List.not_mem_nil, or_false] at hs
    rcases hs with rfl | rfl
    · exact .rep _ (by decide) (.rep _ _ (by decide) (by decide))
    · exact .rep _ (by decide) (.rep _ _ (by decide) (by decide))
  have hterm : ∀ x b, (x, b) ∈ terms (.or false [exBoth, exBoth]) → b.grp = Ex.G ∧ (7 : Int) • b.val = 0 := by
    intro x b hx
    simp only [exBoth, terms, termsL, Ex.rep1, Ex.rep2, List.zip_cons_cons, List.zip_nil_right,
      List.cons_append, List.nil_append, List.append_nil, List.mem_cons, Prod.mk.injEq,
      List.not_mem_nil, or_false] at hx
    rcases hx with ⟨_, rfl⟩ | ⟨_, rfl⟩ | ⟨_, rfl⟩ | ⟨_, rfl⟩ | ⟨_, rfl⟩ | ⟨_, rfl⟩ <;> exact ⟨rfl, by decide⟩
  refine ⟨by simp [exBoth, Solid, SolidL, Ex.rep1, Ex.rep2, Ex.P, Ex.G], fun x b hx => ?_, ?_, ?_⟩
  · obtain ⟨h1, h2⟩ := hterm x b hx
    rw [h1]; exact h2
  · refine .any _ ⟨exBoth, by simp, rfl⟩ fun t ht _ => ?_
    simp only [List.mem_cons, List.not_mem_nil, or_false, or_self] at ht
    subst ht
    refine .all _ fun t ht => ?_
    simp only [List.mem_cons, List.not_mem_nil, or_false] at ht
    rcases ht with rfl | rfl <;> exact hleaf _ (by simp)
  · refine .or _ _ (fun x b y c hx hy _ => by rw [(hterm x b hx).1, (hterm y c hy).1]) fun t ht => ?_
    simp only [List.mem_cons, List.not_mem_nil, or_false, or_self] at ht
    subst ht
    obtain ⟨k1, k2⟩ := and_rules (σ := Ex.σ) (b := false) (ts := [.leaf Ex.rep1, .leaf Ex.rep2])
      (by simp [Solid, SolidL, Ex.rep1, Ex.rep2, Ex.P, Ex.G]) rfl
    refine .and _ _ k1 k2 fun t ht => ?_
    simp only [List.mem_cons, List.not_mem_nil, or_false] at ht
    rcases ht with rfl | rfl <;> exact .leaf _

/-- `s.prove({x0: 2, x1: 3, x2: 4})`, though the clauses have their parts in common. -/
example (c : Int) (rng : Nat → Nat) : ∃ π h' w', exObjs.prove (Ex.env c) 7 exDict "m" ⟨Ex.σ, rng⟩ = .ok ((π, h'), w') ∧
    h'.verify (Ex.env c) w'.store 7 π "m" = .ok true := by
  have hh : heapFor Ex.σ exDict (.or false [exBoth, exBoth]) = Ex.σ := exHeap
  obtain ⟨g1, g2, g3, g4⟩ := exOr_facts
  obtain ⟨π, h', w', h1, _, h2, _⟩ := C78_prove_succeeds (Ex.env c) exObjs 7 _ exObjs_tree exDict ⟨Ex.σ, rng⟩ "m" exVal g1 g2
    (by simp only [hh, exDict, Dict.Uniq]; decide) (by simp only [hh]; exact g3) (by simp only [hh]; exact g4)
  exact ⟨π, h', w', h1, h2⟩

/-- Proving `c` marks the parts of `s`, which remains the same statement. -/
example : Calls (fun _ _ => True) (fun _ _ => True) exObjs (exObjs.setSimulated 5 true) :=
  .more _ _ _ [] [5] (.setSimulated 5 true) (fun _ _ => trivial) (fun _ _ => trivial) (.none _)

/-! ### C79: proofs of one object and proofs of another one -/

/-- Four secrets, the values of all but the second one being known. -/
def σ4 : Store where
  name s := if s = 0 then "x0" else if s = 1 then "x1" else if s = 2 then "x2" else "x3"
  value s := if s = 0 then some 2 else if s = 1 then none else if s = 2 then some 2 else some 3

/-- `p`, `r`, two copies of them, `q = p | r`, `a`, `b`, the parts of `s1 = q & a`, `s1`, the parts of `s2 = q & b`, `s2`. -/
def exTwo : Objects (ZMod 7) where
  objs := [.rep (Ex.P 6) [Ex.P 3] [0] 0 false, .rep (Ex.P 5) [Ex.P 3] [1] 1 true,
    .rep (Ex.P 6) [Ex.P 3] [0] 0 false, .rep (Ex.P 5) [Ex.P 3] [1] 1 true, .any 0 false,
    .rep (Ex.P 2) [Ex.P 1] [2] 2 false, .rep (Ex.P 3) [Ex.P 1] [3] 3 false,
    .any 0 false, .rep (Ex.P 2) [Ex.P 1] [2] 2 false, .all 1 false,
    .any 0 false, .rep (Ex.P 3) [Ex.P 1] [3] 3 false, .all 2 false]
  dicts := [[], [], [], []]
  lists := [[2, 3], [7, 8], [10, 11]]

/-- They are made by the constructors. -/
example : (do
    let σ : Store := { σ4 with value := fun _ => none }
    let (p, h) ← Objects.newRep σ ⟨[], [], []⟩ (Ex.P 6) [0] [Ex.P 3] false
    let (r, h) ← h.newRep σ (Ex.P 5) [1] [Ex.P 3] true
    let (q, h) ← h.opOr p r
    let (a, h) ← h.newRep σ (Ex.P 2) [2] [Ex.P 1] false
    let (b, h) ← h.newRep σ (Ex.P 3) [3] [Ex.P 1] false
    let (s1, h) ← h.opAnd q a
    let (s2, h) ← h.opAnd q b
    .ok (s1, s2, h)) = .ok (9, 12, exTwo) := rfl

/-- The statement `q & (y = xi·1)`. -/
def exQ (y : ZMod 7) (i : Sec) : Core (ZMod 7) :=
  .and false [.or false [.leaf ⟨Ex.P 6, [Ex.P 3], [0], [], false⟩, .leaf ⟨Ex.P 5, [Ex.P 3], [1], [], true⟩],
    .leaf ⟨Ex.P y, [Ex.P 1], [i], [], false⟩]

theorem exQ_proves (env : Env (ZMod 7)) {h : Objects (ZMod 7)} {r : Nat} (y : ZMod 7) (i : Sec) (x : Int) (hr : h.tree r = some (exQ y i))
    (hy : y = x • (1 : ZMod 7)) (hi : i = 2 ∧ x = 2 ∨ i = 3 ∧ x = 3) (rng : Nat → Nat) :
    ∃ π h' w', h.prove env r [(0, 2), (i, x)] "" ⟨σ4, rng⟩ = .ok ((π, h'), w') ∧ h'.verify env w'.store r π "" = .ok true := by
  have hheap : heapFor σ4 [(0, 2), (i, x)] (exQ y i) = σ4 := by
    refine store_ext fun z => ?_
    rcases hi with ⟨rfl, rfl⟩ | ⟨rfl, rfl⟩
    · simp only [Store.key, heapFor, exQ, σ4, List.foldl_cons, List.foldl_nil, Prod.mk.injEq, true_and]
      by_cases h0 : z = 0
      · simp [h0]
      · by_cases h2 : z = 2
        · simp [h2]
        · simp [h0, h2, Ne.symm h0, Ne.symm h2]
    · simp only [Store.key, heapFor, exQ, σ4, List.foldl_cons, List.foldl_nil, Prod.mk.injEq, true_and]
      by_cases h0 : z = 0
      · simp [h0]
      · by_cases h2 : z = 3
        · simp [h2]
        · simp [h0, h2, Ne.symm h0, Ne.symm h2]
  have hterm : ∀ x b, (x, b) ∈ terms (exQ y i) → b.grp = Ex.G ∧ (7 : Int) • b.val = 0 := by
    intro x b hx
    simp only [exQ, terms, termsL, List.zip_cons_cons, List.zip_nil_right,
      List.cons_append, List.nil_append, List.append_nil, List.mem_cons, Prod.mk.injEq,
      List.not_mem_nil, or_false] at hx
    rcases hx with ⟨_, rfl⟩ | ⟨_, rfl⟩ | ⟨_, rfl⟩ <;> exact ⟨rfl, by decide⟩
  have hs : Solid (exQ y i) := by simp [exQ, Solid, SolidL, Ex.P, Ex.G]
  have hX : Satisfied σ4 [(0, 2), (i, x)] (fun κ => if κ.1 = "x0" then 2 else x) (exQ y i) := by
    refine .all _ fun t ht => ?_
    simp only [List.mem_cons, List.not_mem_nil, or_false] at ht
    rcases ht with rfl | rfl
    · refine .any _ ⟨_, List.mem_cons_self .., rfl⟩ fun t ht hu => ?_
      simp only [List.mem_cons, List.not_mem_nil, or_false] at ht
      rcases ht with rfl | rfl
      · rcases hi with ⟨rfl, rfl⟩ | ⟨rfl, rfl⟩ <;> exact .rep _ (by decide) (.rep _ _ (by decide) (by decide))
      · cases hu
    · rcases hi with ⟨rfl, rfl⟩ | ⟨rfl, rfl⟩
      · subst hy
        exact .rep _ (by decide) (.rep _ _ (by decide) (by decide))
      · subst hy
        exact .rep _ (by decide) (.rep _ _ (by decide) (by decide))
  have hc : Composable σ4 (exQ y i) := by
    obtain ⟨k1, k2⟩ := and_rules (σ := σ4) (b := false) (ts := _) hs (by
      rcases hi with ⟨rfl, rfl⟩ | ⟨rfl, rfl⟩ <;> rfl)
    refine .and _ _ k1 k2 fun t ht => ?_
    simp only [List.mem_cons, List.not_mem_nil, or_false] at ht
    rcases ht with rfl | rfl
    · refine .or _ _ (fun x b y' c hx hy' _ => ?_) fun t ht => ?_
      · rw [(hterm x b (by simp only [exQ, terms, termsL] at hx ⊢; simp only [List.mem_append]; exact .inl (by simpa using hx))).1,
          (hterm y' c (by simp only [exQ, terms, termsL] at hy' ⊢; simp only [List.mem_append]; exact .inl (by simpa using hy'))).1]
      · simp only [List.mem_cons, List.not_mem_nil, or_false] at ht
        rcases ht with rfl | rfl <;> exact .leaf _
    · exact .leaf _
  obtain ⟨π, h', w', h1, _, h2, _⟩ := C78_prove_succeeds env h r _ hr [(0, 2), (i, x)] ⟨σ4, rng⟩ "" _ hs
    (fun x b hx => by obtain ⟨e1, e2⟩ := hterm x b hx; rw [e1]; exact e2)
    (by simp only [hheap]; rcases hi with ⟨rfl, rfl⟩ | ⟨rfl, rfl⟩ <;> simp only [Dict.Uniq] <;> decide)
    (by simp only [hheap]; exact hX) (by simp only [hheap]; exact hc)
  exact ⟨π, h', w', h1, h2⟩

/-- **C79** Fails: `q = p | r` where `r` is marked as simulated, `s1 = q & a`, `s2 = q & b`.  The statement `s2` can be
proved, but no more after `s1` has been proved: the copies of `q` in `s1` and `s2` have the same list of clauses, and
making a prover marks the clause it is made of (`zksk/primitives/dlrep.py:126`). -/
theorem C79_violated : ∃ (h : Objects (ZMod 7)) (s1 s2 : Nat) (env : Env (ZMod 7)) (d1 d2 : Dict Int) (w : World),
    (∃ π1 h1 w1, h.prove env s1 d1 "" w = .ok ((π1, h1), w1) ∧ h1.verify env w1.store s1 π1 "" = .ok true ∧
      h1.prove env s2 d2 "" w1 = .error .valueError) ∧
    ∃ π2 h2 w2, h.prove env s2 d2 "" w = .ok ((π2, h2), w2) ∧ h2.verify env w2.store s2 π2 "" = .ok true := by
  refine ⟨exTwo, 9, 12, Ex.env 3, [(0, 2), (2, 2)], [(0, 2), (3, 3)], ⟨σ4, fun i => i⟩, ?_,
    exQ_proves (Ex.env 3) 3 3 3 rfl (by decide) (.inr ⟨rfl, rfl⟩) _⟩
  obtain ⟨π1, h1, w1, e1, e2⟩ := exQ_proves (Ex.env 3) (h := exTwo) (r := 9) 2 2 2 rfl (by decide) (.inl ⟨rfl, rfl⟩) (fun i => i)
  refine ⟨π1, h1, w1, e1, e2, ?_⟩
  have key : (match exTwo.prove (Ex.env 3) 9 [(0, 2), (2, 2)] "" ⟨σ4, fun i => i⟩ with
      | .ok ((_, h1), w1) => (match h1.prove (Ex.env 3) 12 [(0, 2), (3, 3)] "" w1 with
        | .error .valueError => true
        | _ => false)
      | .error _ => false) = true := by decide +kernel
  rw [e1] at key
  simp only at key
  split at key
  · assumption
  · cases key

/-- **C79** (partial) What is missing: see `C79_violated`.  A statement can be proved after any calls, if provers were
only made of objects which have no part in common with it, if `set_simulated` and `simulate` were not called on it or
its parts, and if the dictionary has the values of all secrets of unmarked parts. -/
theorem C79_isolated_partial (env : Env E) (h h' : Objects E) (r : Nat) (t : Core E) (hr : h.tree r = some t)
    (hcalls : Calls (fun h q => NoCommonPart h q r) (fun h m => ¬ Reaches h r m) h h') (d : Dict Int) (w : World)
    (msg : String) (X : Key → Int) (hs : Solid t) (ht : Torsion t) (hd : d.Uniq (heapFor w.store d t))
    (hX : Satisfied (heapFor w.store d t) d X t) (hc : Composable (heapFor w.store d t) t)
    (hsup : Supplied (heapFor w.store d t) d t) :
    ∃ π h'' w', h'.prove env r d msg w = .ok ((π, h''), w') ∧ h''.verify env w'.store r π msg = .ok true := by
  obtain ⟨t', h1, h2⟩ := apart_calls (M := False) (Calls.imp (fun _ _ => Or.inr) (fun _ _ => id) hcalls) hr
  have hb := alike_blank h2
  have hh := Share.heapFor_blank hb w.store d
  obtain ⟨π, h'', w', e1, _, e2, _⟩ := C78_prove_succeeds env h' r t' h1 d w msg X (solid_blank hs hb) (torsion_blank ht hb)
    (by rw [hh]; exact hd) (by rw [hh]; exact satisfied_alike h2 (fun f => f.elim) hX hsup)
    (by rw [hh]; exact composable_blank hc _ hb)
  exact ⟨π, h'', w', e1, e2⟩

/-- Helper for the examples: a set of objects with all their parts. -/
theorem reaches_closed {h : Objects E} (S : List Nat)
    (hS : (S.all fun a => match h.objs[a]? with
      | some (.all l _) => ((h.lists[l]?).getD []).all (fun p => decide (p ∈ S))
      | some (.any l _) => ((h.lists[l]?).getD []).all (fun p => decide (p ∈ S))
      | _ => true) = true) {r q : Nat} (hr : Reaches h r q) (hm : r ∈ S) : q ∈ S := by
  induction hr with
  | self => exact hm
  | all r l b rs p q ho hl hp _ ih =>
    have := List.all_eq_true.mp hS r hm
    simp only [ho, hl, Option.getD_some, List.all_eq_true, decide_eq_true_eq] at this
    exact ih (this p hp)
  | any r l b rs p q ho hl hp _ ih =>
    have := List.all_eq_true.mp hS r hm
    simp only [ho, hl, Option.getD_some, List.all_eq_true, decide_eq_true_eq] at this
    exact ih (this p hp)

/-- The statement `s1` of the example has no part in common with the object `p` (its part is a copy of `p`), and `s2`
is not marked by marking `p`. -/
example : NoCommonPart exTwo 0 9 ∧ ¬ Reaches exTwo 9 0 ∧ Supplied σ4 [(0, 2), (2, 2)] (exQ 2 2) := by
  have h0 : ∀ q, Reaches exTwo 0 q → q ∈ [0] := fun q hq => reaches_closed [0] (by decide) hq (by simp)
  have h9 : ∀ q, Reaches exTwo 9 q → q ∈ [9, 7, 8, 2, 3] := fun q hq => reaches_closed [9, 7, 8, 2, 3] (by decide) hq (by simp)
  refine ⟨fun q e1 e2 => ?_, fun e => by simpa using h9 0 e, ?_⟩
  · have := h0 q e1
    simp only [List.mem_singleton] at this
    subst this
    simpa using h9 0 e2
  · refine .all _ _ fun t ht => ?_
    simp only [List.mem_cons, List.not_mem_nil, or_false] at ht
    rcases ht with rfl | rfl
    · refine .any _ _ fun t ht hu => ?_
      simp only [List.mem_cons, List.not_mem_nil, or_false] at ht
      rcases ht with rfl | rfl
      · exact .rep _ (by decide)
      · cases hu
    · exact .rep _ (by decide)

/-- The calls of the theorem: `p.get_prover({x0: 2})`. -/
example : ∃ h', Calls (fun h q => NoCommonPart h q 9) (fun h m => ¬ Reaches h 9 m) exTwo h' ∧ h'.objs ≠ exTwo.objs := by
  have h9 : ∀ q, Reaches exTwo 9 q → q ∈ [9, 7, 8, 2, 3] := fun q hq => reaches_closed [9, 7, 8, 2, 3] (by decide) hq (by simp)
  refine ⟨_, .more _ _ _ [0] [] (.getProver 0 [(0, 2)] ⟨σ4, fun i => i⟩ _ _ _ rfl) (fun q hq => ?_) (fun m hm => by simp at hm) (.none _), ?_⟩
  · simp only [List.mem_singleton] at hq
    subst hq
    intro q e1 e2
    have := reaches_closed [0] (by decide) e1 (by simp)
    simp only [List.mem_singleton] at this
    subst this
    simpa using h9 0 e2
  · intro he
    have := congrArg (fun l : List (Obj (ZMod 7)) => (l[0]?).map Obj.simulated) he
    exact absurd this (by decide)

/-- **C79** (partial) What is missing: see `C79_violated`.  For statements without disjunctions nothing is required of the
objects provers were made of. -/
theorem C79_or_free_partial (env : Env E) (h h' : Objects E) (r : Nat) (t : Core E) (hr : h.tree r = some t) (hf : OrFree t)
    (hcalls : Calls (fun _ _ => True) (fun h m => ¬ Reaches h r m) h h') (d : Dict Int) (w : World)
    (msg : String) (X : Key → Int) (hs : Solid t) (ht : Torsion t) (hd : d.Uniq (heapFor w.store d t))
    (hX : Satisfied (heapFor w.store d t) d X t) (hc : Composable (heapFor w.store d t) t)
    (hsup : Supplied (heapFor w.store d t) d t) :
    ∃ π h'' w', h'.prove env r d msg w = .ok ((π, h''), w') ∧ h''.verify env w'.store r π msg = .ok true := by
  obtain ⟨t', h1, h2⟩ := apart_calls (M := True) (Calls.imp (fun _ _ _ => Or.inl trivial) (fun _ _ => id) hcalls) hr
  have hb := alike_blank h2
  have hh := Share.heapFor_blank hb w.store d
  obtain ⟨π, h'', w', e1, _, e2, _⟩ := C78_prove_succeeds env h' r t' h1 d w msg X (solid_blank hs hb) (torsion_blank ht hb)
    (by rw [hh]; exact hd) (by rw [hh]; exact satisfied_alike h2 (fun _ => hf) hX hsup)
    (by rw [hh]; exact composable_blank hc _ hb)
  exact ⟨π, h'', w', e1, e2⟩

/-- `c = And(a, b)` of the first example has no disjunction, and shares its parts with `s`. -/
example : OrFree exBoth ∧ exObjs.tree 4 = some exBoth ∧ ¬ NoCommonPart exObjs 7 4 ∧ Supplied Ex.σ exDict exBoth := by
  refine ⟨.all _ _ fun t ht => ?_, rfl, fun hn => ?_, .all _ _ fun t ht => ?_⟩
  · simp only [List.mem_cons, List.not_mem_nil, or_false] at ht
    rcases ht with rfl | rfl <;> exact .rep _
  · exact hn 2 (.any 7 1 false [5, 6] 5 2 rfl rfl (by simp) (.all 5 0 false [2, 3] 2 2 rfl rfl (by simp) (.self 2)))
      (.all 4 0 false [2, 3] 2 2 rfl rfl (by simp) (.self 2))
  · simp only [List.mem_cons, List.not_mem_nil, or_false] at ht
    rcases ht with rfl | rfl <;> exact .rep _ (by decide)

/-- **C79** (partial) What is missing: only for compositions of representations.  `And(...)` and `Or(...)` of
representations have no part in common with the objects there were before, their arguments included. -/
theorem C79_fresh_partial (h h' : Objects E) (rs : List Nat) (r : Nat) (ts : List (Core E)) (hts : rs.map h.tree = ts.map some)
    (hrep : ∀ t ∈ ts, ∃ s, t = .leaf s) (he : h.newAll rs = .ok (r, h') ∨ h.newAny rs = .ok (r, h')) (q : Nat) (t : Core E)
    (hq : h.tree q = some t) : NoCommonPart h' q r ∧ NoCommonPart h' r q := by
  have hobj : ∀ p ∈ rs, ∃ lhs bases vars v b, h.objs[p]? = some (Obj.rep lhs bases vars v b) := by
    intro p hp
    obtain ⟨i, hi⟩ := List.getElem?_of_mem hp
    have := congrArg (·[i]?) hts
    simp only [List.getElem?_map, hi, Option.map_some] at this
    cases hti : ts[i]? with
    | none => simp [hti] at this
    | some u =>
      simp only [hti, Option.map_some, Option.some.injEq] at this
      obtain ⟨s, rfl⟩ := hrep u (List.mem_of_getElem? hti)
      exact read_leaf_obj this
  have key : NoCommonPart h' q r := by
    rcases he with e | e
    · exact compose_fresh (.inl rfl) hts hobj e hq
    · exact compose_fresh (.inr rfl) hts hobj e hq
  exact ⟨key, fun x h1 h2 => key x h2 h1⟩

/-- `And(a, b)` of the objects `a` and `b` of the first example has no part in common with `c` and `s`. -/
example : ∀ h' r, exObjs.newAll [0, 1] = .ok (r, h') → NoCommonPart h' 4 r ∧ NoCommonPart h' 7 r := fun h' r e =>
  ⟨(C79_fresh_partial exObjs h' [0, 1] r [.leaf Ex.rep1, .leaf Ex.rep2] rfl (by simp) (.inl e) 4 _ rfl).1,
    (C79_fresh_partial exObjs h' [0, 1] r [.leaf Ex.rep1, .leaf Ex.rep2] rfl (by simp) (.inl e) 7 _ rfl).1⟩

/-! ### C80: a prover object and later calls -/

/-- **C80** Fails: a prover for the value 2 is made and commits; then another prover is made of the same statement
with another value. After that the first prover gives a response that is not accepted, while before it would have
given one that is: it refers to the dictionary of the statement (`zksk/primitives/dlrep.py:123,139`). -/
theorem C80_violated : ∃ (h h1 h2 : Objects (ZMod 7)) (r : Nat) (t : Core (ZMod 7)) (env : Env (ZMod 7)) (d d' : Dict Int)
    (w w1 w2 w3 : World) (hp hp' hq : HProver (ZMod 7)) (pre : List UInt8) (com resp resp' : Val (ZMod 7)),
    h.tree r = some t ∧ h.proverOf r d w = .ok ((some hp, h1), w1) ∧ hp.commit env h1 w1 = .ok (((pre, com), hp'), w2) ∧
    h1.proverOf r d' w2 = .ok ((some hq, h2), w3) ∧
    hp'.respond h1 3 w2 = .ok (resp, w2) ∧ verifyResponse w2.store t com 3 resp = .ok true ∧
    hp'.respond h2 3 w3 = .ok (resp', w3) ∧ verifyResponse w3.store t com 3 resp' = .ok false := by
  refine ⟨⟨[.rep (Ex.P 6) [Ex.P 3] [0] 0 false], [[]], []⟩, _, _, 0, _, Ex.env 3, [(0, 2)], [(0, 5)], ⟨σ4, fun i => i⟩,
    _, _, _, _, _, _, _, _, _, _, rfl, rfl, rfl, rfl, rfl, rfl, rfl, rfl⟩

/-- **C80** (partial) What is missing: see `C80_violated`.  A prover answers as it would have answered before, if in the
meantime provers were only made of objects without a representation whose dictionary the prover refers to. Compositions
may be made, and marks set, without restriction. -/
theorem C80_isolated_partial (h h' : Objects E) (hp : HProver E)
    (hcalls : Calls (fun h q => ∀ x lhs bases vars v b, Reaches h q x →
      h.objs[x]? = some (Obj.rep lhs bases vars v b) → v ∉ dictsOf hp) (fun _ _ => True) h h')
    (c : Int) (w w' : World) (a : Val E) (ha : hp.respond h c w = .ok (a, w')) : hp.respond h' c w = .ok (a, w') := by
  obtain ⟨p, hs⟩ := respond_sees ha
  have hcalls' := Calls.imp (P' := fun h q => ∀ v ∈ dictsOf hp, ¬ Owns h q v) (Q' := fun _ _ => True)
    (by
      rintro h q hP v hv ⟨x, lhs, bases, vars, b, h1, h2⟩
      exact hP x lhs bases vars v b h1 h2 hv) (fun _ _ _ => trivial) hcalls
  rw [← ha]
  exact respond_same (grown_calls hcalls) (fun v hv vals hvals => ⟨vals, dicts_calls hcalls' hv hvals, fun _ => rfl⟩) hs rfl

/-- **C80** (partial) What is missing: see `C80_violated`.  The prover made of a statement object with values that make its
unmarked part true commits and answers every challenge so that the response is accepted, whatever was called after the
commitment under the restriction of `C80_isolated_partial`. -/
theorem C80_accepted_partial (env : Env E) (h : Objects E) (r : Nat) (t : Core E) (hr : h.tree r = some t) (d : Dict Int)
    (w : World) (X : Key → Int) (hs : Solid t) (ht : Torsion t) (hd : d.Uniq (heapFor w.store d t))
    (hX : Satisfied (heapFor w.store d t) d X t) (hc : Composable (heapFor w.store d t) t) :
    ∃ hp h1 w1 pc hp' w2, h.proverOf r d w = .ok ((some hp, h1), w1) ∧ hp.commit env h1 w1 = .ok ((pc, hp'), w2) ∧
      ∀ h', Calls (fun h q => ∀ x lhs bases vars v b, Reaches h q x →
          h.objs[x]? = some (Obj.rep lhs bases vars v b) → v ∉ dictsOf hp) (fun _ _ => True) h1 h' →
        ∀ c, ∃ a w3, hp'.respond h' c w2 = .ok (a, w3) ∧ verifyResponse w2.store t pc.2 c a = .ok true := by
  obtain ⟨hp, h1, w1, pc, hp', w2, e1, _, e3, e4, e5⟩ := answers_satisfied env hr hs ht hd hX hc
  refine ⟨hp, h1, w1, pc, hp', w2, e1, e3, fun h' hcalls c => ?_⟩
  obtain ⟨a, w3, f1, f2⟩ := e5 c
  refine ⟨a, w3, C80_isolated_partial h1 h' hp' ?_ c w2 w3 a f1, by rw [e4]; exact f2⟩
  rw [dictsOf_commit e3]
  exact hcalls

/-- The disjunction `s` of the first example, whose clauses have their parts in common. -/
example (c : Int) (rng : Nat → Nat) : ∃ hp h1 w1 pc hp' w2, exObjs.proverOf 7 exDict ⟨Ex.σ, rng⟩ = .ok ((some hp, h1), w1) ∧
    hp.commit (Ex.env c) h1 w1 = .ok ((pc, hp'), w2) ∧
    ∃ a w3, hp'.respond h1 c w2 = .ok (a, w3) ∧ verifyResponse w2.store (.or false [exBoth, exBoth]) pc.2 c a = .ok true := by
  have hh : heapFor Ex.σ exDict (.or false [exBoth, exBoth]) = Ex.σ := exHeap
  obtain ⟨g1, g2, g3, g4⟩ := exOr_facts
  obtain ⟨hp, h1, w1, pc, hp', w2, e1, e2, e3⟩ := C80_accepted_partial (Ex.env c) exObjs 7 _ exObjs_tree exDict ⟨Ex.σ, rng⟩ exVal g1 g2
    (by simp only [hh, exDict, Dict.Uniq]; decide) (by simp only [hh]; exact g3) (by simp only [hh]; exact g4)
  exact ⟨hp, h1, w1, pc, hp', w2, e1, e2, e3 h1 (.none _) c⟩

/-- The objects after `p.get_prover({x0: 2})` in the example of C79; the prover refers to dictionary 0. -/
def exAfter : Objects (ZMod 7) :=
  { exTwo with
    objs := exTwo.objs.set 0 (.rep (Ex.P 6) [Ex.P 3] [0] 0 true)
    dicts := [[(0, 2)], [], [], []] }

/-- `a.get_prover({x2: 5})` is then without effect on the answer `2 * 3 + 4 mod 7`. -/
example : exTwo.proverOf 0 [(0, 2)] ⟨σ4, fun i => i⟩ = .ok ((some (.rep 0 0 none), exAfter), ⟨σ4, fun i => i⟩) ∧
    (HProver.rep 0 0 (some [4])).respond exAfter 3 ⟨σ4, fun i => i⟩ = .ok (.list [.int 3], ⟨σ4, fun i => i⟩) ∧
    ∃ h', Calls (fun h q => ∀ x lhs bases vars v b, Reaches h q x →
      h.objs[x]? = some (Obj.rep lhs bases vars v b) → v ∉ dictsOf (.rep 0 0 (some [4]) : HProver (ZMod 7))) (fun _ _ => True)
      exAfter h' := by
  refine ⟨rfl, rfl, _, .more _ _ _ [5] [] (.getProver 5 [(2, 5)] ⟨σ4, fun i => i⟩ _ _ _ rfl) (fun q hq => ?_)
    (fun m hm => by simp at hm) (.none _)⟩
  simp only [List.mem_singleton] at hq
  subst hq
  intro x lhs bases vars v b h1 h2
  have := reaches_closed (h := exAfter) [5] (by decide) h1 (by simp)
  simp only [List.mem_singleton] at this
  subst this
  simp only [exAfter, exTwo, List.set_cons_zero, List.getElem?_cons_succ, List.getElem?_cons_zero, Option.some.injEq,
    Obj.rep.injEq] at h2
  obtain ⟨_, _, _, rfl, _⟩ := h2
  simp [dictsOf]

/-- **C80** (partial) What is missing: see `C80_violated`.  A prover answers as it would have answered before, if in the
meantime `get_prover` was called with the same dictionary, of whatever object; the values being those that the secrets
have already. -/
theorem C80_same_dictionary_partial (env : Env E) (h h1 h2 : Objects E) (r q : Nat) (d : Dict Int) (w w1 w2 w3 w4 : World)
    (hp hp' : HProver E) (p2 : Option (HProver E)) (pc : List UInt8 × Val E) (hupd : updateSecretValues w.store d = w.store)
    (hd : d.Uniq w.store) (e1 : h.proverOf r d w = .ok ((some hp, h1), w1)) (e2 : hp.commit env h1 w1 = .ok ((pc, hp'), w2))
    (hw3 : w3.store = w.store) (e3 : h1.proverOf q d w3 = .ok ((p2, h2), w4))
    (c : Int) (w5 w6 : World) (hw5 : w5.store = w.store) (a : Val E) (ha : hp'.respond h1 c w5 = .ok (a, w6)) :
    hp'.respond h2 c w5 = .ok (a, w6) := by
  obtain ⟨p, hs⟩ := respond_sees ha
  have hhas := has_prover ⟨hupd, hd⟩ _ h r w hp h1 w1 e1 rfl
  have hwr := wrote (A := True) (σ := w.store) (fun _ => ⟨hupd, hd⟩) _ h1 q w3 p2 h2 w4 e3
  have hg : Grown (fun _ _ => True) h1 h2 := (grown_prover e3).grown.mono fun _ _ _ => trivial
  rw [← ha]
  refine respond_same hg (fun v hv vals hvals => ?_) hs hw5
  rw [dictsOf_commit e2] at hv
  obtain ⟨vals0, k1, k2⟩ := hhas v hv
  rw [hvals] at k1
  cases k1
  obtain ⟨vals', k3, k4⟩ := hwr.2.1 v vals hvals
  refine ⟨vals', k3, fun x => ?_⟩
  rcases k4 with rfl | k4
  · rfl
  · rw [k4.2 ⟨trivial, hw3⟩ x]
    cases hx : Dict.get? w.store d x with
    | none => rfl
    | some a => rw [k2 x a hx]; rfl

/-- The calls of `C80_violated` with the same value again. -/
example : ∃ (h1 h2 : Objects (ZMod 7)) (w1 w2 w4 : World) (hp hp' : HProver (ZMod 7)) (p2 : Option (HProver (ZMod 7)))
    (pc : List UInt8 × Val (ZMod 7)) (a : Val (ZMod 7)), exTwo.proverOf 0 [(0, 2)] ⟨σ4, fun i => i⟩ = .ok ((some hp, h1), w1) ∧
    hp.commit (Ex.env 3) h1 w1 = .ok ((pc, hp'), w2) ∧ h1.proverOf 0 [(0, 2)] w2 = .ok ((p2, h2), w4) ∧
    hp'.respond h1 3 w4 = .ok (a, w4) := ⟨_, _, _, _, _, _, _, _, _, _, rfl, rfl, rfl, rfl⟩

end Zksk.Props
