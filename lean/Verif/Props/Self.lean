import Verif.Props.Library
import Verif.Props.RangeComplete
import Verif.Lemmas.HideRun

/-! C74: the round trip of the documentation, where the object that made a proof verifies it. -/

set_option linter.unusedSectionVars false

namespace Zksk.Props

open Spec

variable {E : Type} [AddCommGroup E] [DecidableEq E]

/-- Helper: a statement object in a later state is a verifier's object for the statement. -/
theorem verifierFor_blank {σ : Store} {t : Stmt E} (h : EveryLeaf (fun l => LeafFor σ l l) t) :
    ∀ t' : Stmt E, Tree.blank t' = Tree.blank t → VerifierFor σ t' t := by
  have idx : ∀ {ts ts' : List (Stmt E)}, Tree.blankL ts' = Tree.blankL ts → ts'.length = ts.length ∧
      ∀ (i : Nat) (t' t : Stmt E), ts'[i]? = some t' → ts[i]? = some t → Tree.blank t' = Tree.blank t := by
    intro ts ts' e
    rw [Tree.blankL_eq, Tree.blankL_eq] at e
    refine ⟨by simpa using congrArg List.length e, fun i t' t h1 h2 => ?_⟩
    have := congrArg (·[i]?) e
    simpa [h1, h2] using this
  induction h with
  | leaf l hl =>
    intro t' e
    obtain ⟨l', rfl, hb⟩ := Tree.blank_leaf_inv e
    refine .leaf _ _ ?_
    cases l with
    | dlrep s =>
      cases l' with
      | ext _ => simp [Blank.blank] at hb
      | dlrep s' =>
        simp only [Blank.blank, Leaf.dlrep.injEq] at hb
        cases s; cases s'
        simp only [DLRep.norm, DLRep.mk.injEq] at hb
        exact ⟨hb.1, hb.2.1, hb.2.2.1⟩
    | ext s =>
      cases l' with
      | dlrep _ => simp [Blank.blank] at hb
      | ext s' =>
        simp only [Blank.blank, Leaf.ext.injEq, Ext.mk.injEq, and_true] at hb
        show s'.spec.cls = _ ∧ s'.spec.validate = _ ∧ _
        rw [hb]
        exact hl
  | all b subs hne hsub ih =>
    intro t' e
    obtain ⟨b', us, rfl, hb⟩ := Tree.blank_and_inv e
    obtain ⟨h1, h2⟩ := idx hb
    exact .all _ _ _ _ h1 fun i t u ht hu => ih u (List.mem_of_getElem? hu) t (h2 i t u ht hu)
  | any b subs hne hsub ih =>
    intro t' e
    obtain ⟨b', us, rfl, hb⟩ := Tree.blank_or_inv e
    obtain ⟨h1, h2⟩ := idx hb
    exact .any _ _ _ _ h1 fun i t u ht hu => ih u (List.mem_of_getElem? hu) t (h2 i t u ht hu)

/-- Helper: the general case.  `hself` says that what an extended statement constructs does not depend on what was
written by `prove()`. -/
theorem self_general (F : Profile E) (q : Nat) (Z : ExtSpec E → Val E → Prop) (env : Env E)
    (t : Stmt E) (d : Dict Int) (w : World) (msg : String) (ht : ∀ s, t ≠ .leaf (.dlrep s))
    (h : Spec.Ready F q (updateSecretValues w.store d) d Z t) (hn : Named F w.store.name t)
    (hself : ∀ σ' : Store, σ'.name = w.store.name →
      (∀ x, ¬ AtLeaf (leafWrites F) t x → σ'.key x = (updateSecretValues w.store d).key x) →
      EveryLeaf (fun l => LeafFor σ' l l) t) :
    ∃ nizk t' w', prove (LeafProver E) env t d msg w = .ok ((nizk, t'), w') ∧
      w'.store.name = w.store.name ∧ Tree.blank t' = Tree.blank t ∧
      (∀ x, ¬ AtLeaf (leafWrites F) t x → w'.store.key x = (updateSecretValues w.store d).key x) ∧
      EveryLeaf (LeafMade Z) t' ∧
      (EveryLeaf LeafValid t' → verify env w'.store t' nizk msg = .ok true) ∧
      ∀ e, Tree.fullValidate t' = .error e → verify env w'.store t' nizk msg = .error e := by
  have hn' : (updateSecretValues w.store d).name = w.store.name := updateSecretValues_name _ _
  obtain ⟨p, t', w1, h1, h2, ⟨nizk, p', w2, h3, h4, h5, h6, _, h7, h8⟩, _⟩ :=
    stmt_run F q d Z (AtLeaf (leafWrites F) t) h.args h.hashable ht h.uniq (good_of_ready h) (sat_of_ready h)
      h.separate (fun x hx => hx) (hn' ▸ h.tidy) env msg
  have h7' : ∀ x, ¬ AtLeaf (leafWrites F) t x → w2.store.key x = (updateSecretValues w.store d).key x :=
    fun x hx => (h7 x hx).trans (by rw [h2])
  refine ⟨nizk, _, w2, stmt_prove_of h1 h3, h4, h6, h7', made_of_built h5, ?_⟩
  have hn2 : Named F w2.store.name t := by rw [h4]; exact hn
  have := h8 w2.store _ (judge_of (verifierFor_blank (hself _ h4 h7') _ h6))
    fun k hk => sees_built h5 h6 hn2 hn2 k hk
  rw [this]
  constructor
  · intro hv
    rw [fullValidate_of_every hv]; rfl
  · intro e he
    rw [he]; rfl

/-- Helper: the statements of the library construct the same in all heaps that agree on the secrets of the caller. -/
theorem lib_self {q : Nat} {σ σ' : Store} {d : Dict Int} {Priv : Sec → Prop} {b : Bool} {l : Leaf E}
    (h : LibLeaf q σ d Priv b l) (hv : ∀ x, ¬ Priv x → σ'.key x = σ.key x) : LeafFor σ' l l := by
  cases h with
  | rep s _ _ _ _ _ => exact ⟨rfl, rfl, rfl⟩
  | notEqual s a ha _ _ _ _ _ _ _ =>
    have := NotEqual.leafFor_self s σ' false .none none none
    show a.spec.cls = _ ∧ a.spec.validate = _ ∧ _
    rw [ha]
    exact this
  | range s a ha _ _ _ _ _ hpriv _ hin _ =>
    refine PowerTwo.leafFor (s := s) (s' := s) rfl rfl rfl rfl σ' (fun hp => ?_) _ _ ha ha
    obtain ⟨x, h1, h2, h3⟩ := hin hp
    have := hv s.x hpriv.2.1
    simp only [Store.key, Prod.mk.injEq] at this
    exact ⟨x, this.2.trans h1, h2, h3⟩
  | signature P s gen a ha _ _ hP hk _ _ _ _ _ _ _ =>
    have := BBS.leafFor hP hk gen gen σ' s.signature false .none none none false .none none none
    show a.spec.cls = _ ∧ a.spec.validate = _ ∧ _
    rw [ha]
    exact this

/-- **C74** The round trip `nizk = stmt.prove(d, m); stmt.verify(nizk, m)` with one object: after `prove()`, the
statement object has precommitments, constructed statements, known values and marks of clauses as simulated, and its
secrets have new values.  For every composition `t` of the statements of the library as in `C66_complete`, `prove()`
succeeds and the object then accepts the proof, or raises `ValidationError` if a blinding of an inequality proof is
zero. -/
theorem C74_same_object (q : Nat) (Priv : Sec → Prop) (env : Env E) (t : Stmt E) (d : Dict Int) (w : World) (msg : String)
    (ht : ∀ s, t ≠ .leaf (.dlrep s)) (hall : EveryLeaf (LibLeaf q (updateSecretValues w.store d) d Priv false) t)
    (hproved : ProvedLeaf (LibLeaf q (updateSecretValues w.store d) d Priv true) t)
    (hsep : Separate (libProfile Priv) t) (htidy : Tidy (libProfile Priv) w.store.name t)
    (hd : d.Uniq (updateSecretValues w.store d)) (hda : ∀ e ∈ d, ¬ Priv e.1)
    (hn : Named (libProfile Priv) w.store.name t) :
    ∃ nizk t' w', prove (LeafProver E) env t d msg w = .ok ((nizk, t'), w') ∧
      (verify env w'.store t' nizk msg = .ok true ∨
        (∃ s : NotEqual E, Uses s.spec t) ∧ verify env w'.store t' nizk msg = .error .validation) := by
  have htidy' : Tidy (libProfile Priv) (updateSecretValues w.store d).name t := by
    rw [updateSecretValues_name]; exact htidy
  have hr := ready_lib (N := ∃ s : NotEqual E, Uses s.spec t) (fun s hs => ⟨s, hs⟩) hall hproved hsep htidy' hd hda
    (told_of_uniq hd)
  obtain ⟨nizk, t', w', h1, _, _, _, h3, k1, k2⟩ := self_general (libProfile Priv) q _ env t d w msg
    ht hr hn fun σ' _ hk => by
      exact every_mono hall fun l _ hl => lib_self hl fun x hx => hk x fun hw => hx (priv_of_writes hw)
  refine ⟨nizk, t', w', h1, ?_⟩
  rcases fullValidate_lib h3 with e | ⟨hN, e⟩
  · exact .inl (k1 (valid_of_full h3 e))
  · exact .inr ⟨hN, k2 _ e⟩

/-- The statement `exLib`, a disjunction with a representation, an inequality proof and a range proof, verifies its own
proof, for every hash function and all random numbers. -/
example (env : Env (ZMod 7)) (rng : Nat → Nat) (msg : String) :
    ∃ nizk t' w', prove (LeafProver (ZMod 7)) env exLib [(1, 3)] msg ⟨exLibStore, rng⟩ = .ok ((nizk, t'), w') ∧
      (verify env w'.store t' nizk msg = .ok true ∨
        (∃ s : NotEqual (ZMod 7), Uses s.spec exLib) ∧ verify env w'.store t' nizk msg = .error .validation) := by
  obtain ⟨h1, h2, h3, h4, h5, h6, h7, _, h8, _⟩ := exLib_meets
  exact C74_same_object 7 exLibPriv env exLib [(1, 3)] ⟨exLibStore, rng⟩ msg (fun s => h1 _) h2 h3 h4 h5 h6 h7 h8

/-- **C74** The round trip for `RangeStmt`, as in its documentation: every range with at least three elements and every
value in it.  (The object of the prover knows the values, unlike those of the verifiers in
`C39_larger_ranges_partial`.) -/
theorem C74_range (env : Env E) (σ σ1 : Store) (com g h : Pt E) (a b xv rv : Int) (x r : Sec) (next : Nat)
    (t : Stmt E) (hlarge : 3 ≤ b - a) (hax : a ≤ xv) (hxb : xv < b)
    (hx : σ.value x = some xv) (hr : σ.value r = some rv) (hc : com.val = xv • g.val + rv • h.val)
    (hord : g.grp.order ≠ 0) (htor : (g.grp.order : Int) • g.val = 0 ∧ (g.grp.order : Int) • h.val = 0)
    (hxn : x < next) (hrn : r < next)
    (hs : rangeStmt σ com g h a b x r next = .ok (σ1, t)) (d : Dict Int) (rng : Nat → Nat) (msg : String)
    (hd : ∀ e ∈ d, σ.value e.1 = some e.2 ∧ e.1 < next) (hdu : d.Uniq σ1)
    (hnames : ∀ y ∈ x :: r :: freshSecs (next + 2) (2 * rangeBits a b), ∀ z ∈ x :: r :: freshSecs (next + 2)
      (2 * rangeBits a b), σ.name y = σ.name z → y = z) :
    ∃ nizk t' w', prove (LeafProver E) env t d msg ⟨σ1, rng⟩ = .ok ((nizk, t'), w') ∧
      verify env w'.store t' nizk msg = .ok true := by
  obtain ⟨hupd, hnm, hte, ⟨v1, e1, l1, u1⟩, ⟨v2, e2, l2, u2⟩, hw, hready, hnamed⟩ :=
    range_ready hlarge hax hxb hx hr hc hord htor hxn hrn hs hd hdu hnames
  have hready' : Spec.Ready (rangeProfile E (next + 2)) g.grp.order
      (updateSecretValues (World.mk σ1 rng).store d) d PowerTwo.valid t := by
    show Spec.Ready _ _ (updateSecretValues σ1 d) _ _ _
    rw [hupd]; exact hready
  have hlen : ∀ m, (freshSecs m (rangeBits a b)).length = rangeBits a b := by intro m; simp [freshSecs]
  obtain ⟨nizk, t', w', h1, _, _, _, h3, k1, _⟩ := self_general (rangeProfile E (next + 2)) g.grp.order
    PowerTwo.valid env t d ⟨σ1, rng⟩ msg (by rw [hte]; simp) hready' (hnamed σ1 (by rw [hnm]; exact hnames))
    fun σ' _ hk => by
      have hval : ∀ y : Nat, y < next + 2 → σ'.value y = σ1.value y := by
        intro y hy
        have := hk y fun hwy => absurd (hw y hwy) (Nat.not_le_of_lt hy)
        rw [show (World.mk σ1 rng).store = σ1 from rfl, hupd] at this
        simp only [Store.key, Prod.mk.injEq] at this
        exact this.2
      rw [hte]
      refine .all _ _ (by simp) fun u hu => ?_
      simp only [List.mem_cons, List.not_mem_nil, or_false] at hu
      rcases hu with rfl | rfl | rfl
      · exact .leaf _ ⟨rfl, rfl, rfl⟩
      · refine .leaf _ (PowerTwo.leafFor (s := mkPowerTwo σ1 _ g h next r _) (s' := mkPowerTwo σ1 _ g h next r _)
          rfl rfl rfl rfl σ' (fun _ => ⟨v1, ?_, l1, ?_⟩) _ _ rfl rfl)
        · exact (hval next (by omega)).trans e1
        · show v1 < 2 ^ (freshSecs _ _).length
          rw [hlen]; exact u1
      · refine .leaf _ (PowerTwo.leafFor (s := mkPowerTwo σ1 _ g h (next + 1) r _)
          (s' := mkPowerTwo σ1 _ g h (next + 1) r _) rfl rfl rfl rfl σ' (fun _ => ⟨v2, ?_, l2, ?_⟩) _ _ rfl rfl)
        · exact (hval (next + 1) (by omega)).trans e2
        · show v2 < 2 ^ (freshSecs _ _).length
          rw [hlen]; exact u2
  exact ⟨nizk, t', w', h1, k1 (valid_of_made (fun sp v h => h.1) h3)⟩

/-- The hypotheses are met: `1 = 2·1 + 2·3` in `ℤ/7ℤ`, and 2 is in `[0, 4)`. -/
example (env : Env (ZMod 7)) (rng : Nat → Nat) (msg : String) : ∃ σ1 t, rangeStmt exNeStore (Ex.P 1) (Ex.P 1) (Ex.P 3) 0 4 0 1 2 = .ok (σ1, t) ∧
    ∃ nizk t' w', prove (LeafProver (ZMod 7)) env t [(0, 2)] msg ⟨σ1, rng⟩ = .ok ((nizk, t'), w') ∧
      verify env w'.store t' nizk msg = .ok true := by
  obtain ⟨t, ht⟩ := rangeStmt_exists (σ := exNeStore) (com := Ex.P 1) (g := Ex.P 1) (h := Ex.P 3) (a := 0) (b := 4)
    (x := 0) (r := 1) (next := 2) rfl rfl
  refine ⟨_, t, ht, C74_range env exNeStore _ (Ex.P 1) (Ex.P 1) (Ex.P 3) 0 4 2 2 0 1 2 t (by decide) (by decide) (by decide) rfl rfl
    (by decide) (by decide) (by decide) (by decide) (by decide) ht [(0, 2)] rng msg (by decide) ⟨rfl, trivial⟩ ?_⟩
  intro y _ z _ e
  have e := congrArg String.length e
  simpa [exNeStore] using e

/-- **C74** The round trip for `RangeOnlyStmt`, as in its documentation.  `RangeOnlyStmt(a, b, x)` succeeds if `x` has a
value; if the value is in `[a, b)`, with at least three elements, then `prove()` succeeds and the object accepts the
proof. -/
theorem C74_range_only (env : Env E) (w : World) (g h : Pt E) (a b xv : Int) (x : Sec) (next : Nat)
    (hlarge : 3 ≤ b - a) (hax : a ≤ xv) (hxb : xv < b) (hx : w.store.value x = some xv) (hgrp : h.grp = g.grp)
    (hord : g.grp.order ≠ 0) (htor : (g.grp.order : Int) • g.val = 0 ∧ (g.grp.order : Int) • h.val = 0)
    (hxn : x < next) (d : Dict Int) (msg : String)
    (hd : ∀ e ∈ d, w.store.value e.1 = some e.2 ∧ e.1 < next) (hdu : d.Uniq w.store)
    (hnames : ∀ y ∈ x :: next :: freshSecs (next + 3) (2 * rangeBits a b), ∀ z ∈ x :: next :: freshSecs (next + 3)
      (2 * rangeBits a b), w.store.name y = w.store.name z → y = z) :
    ∃ t w1, rangeOnlyStmt g h a b x next w = .ok (t, w1) ∧
      ∃ nizk t' w', prove (LeafProver E) env t d msg w1 = .ok ((nizk, t'), w') ∧
        verify env w'.store t' nizk msg = .ok true := by
  obtain ⟨rv, w0, hdr⟩ : ∃ r w1, draw g.grp.order w = .ok (r, w1) := by
    unfold draw
    rw [if_neg hord]
    exact ⟨_, _, rfl⟩
  have hst := (draw_ok hdr).2.2.2
  have hxne : x ≠ next := Nat.ne_of_lt hxn
  have hv1 : (w0.store.setValue next rv).value x = some xv := by
    simp only [Store.setValue, if_neg hxne, hst, hx]
  have hv2 : (w0.store.setValue next rv).value next = some rv := by simp [Store.setValue]
  have hcom : (Pt.smul xv g).add (Pt.smul rv h) = .ok ⟨g.grp, xv • g.val + rv • h.val⟩ := by
    simp [Pt.add, Pt.smul, hgrp]
  obtain ⟨t, ht⟩ := rangeStmt_exists (σ := w0.store.setValue next rv) (com := ⟨g.grp, xv • g.val + rv • h.val⟩)
    (g := g) (h := h) (a := a) (b := b) (x := x) (r := next) (next := next + 1) rfl hgrp
  have hval : ∀ y : Nat, y < next → (w0.store.setValue next rv).value y = w.store.value y := by
    intro y hy
    simp only [Store.setValue, if_neg (Nat.ne_of_lt hy), hst]
  have hkey : ∀ e ∈ d, (rangeStore (w0.store.setValue next rv) a b x (next + 1) (next + 1 + 1)).key e.1 =
      w.store.key e.1 := by
    intro e he
    have h1 := (rangeStore_values (a := a) (b := b) (next := next + 1) hv1).2.2 e.1
      (Nat.lt_succ_of_lt (hd e he).2)
    simp only [Store.key, rangeStore_name, h1, hval e.1 (hd e he).2]
    simp [Store.setValue, hst]
  refine ⟨t, ⟨rangeStore (w0.store.setValue next rv) a b x (next + 1) (next + 1 + 1), w0.rng⟩, ?_, ?_⟩
  · unfold rangeOnlyStmt
    rw [pm_bind_eq hdr, pm_getStore_bind, pm_setStore_bind]
    simp only [hv1, hv2, hcom]
    have hl : ∀ {α β : Type} (x : α) (f : α → PM β), (liftE (.ok x) >>= f) = f x := fun _ _ => rfl
    rw [hl, ht, hl]
    rfl
  · refine C74_range env _ _ ⟨g.grp, xv • g.val + rv • h.val⟩ g h a b xv rv x next (next + 1) t hlarge hax hxb hv1 hv2 rfl hord
      htor (Nat.lt_succ_of_lt hxn) (Nat.lt_succ_self _) ht d w0.rng msg (fun e he => ⟨?_, Nat.lt_succ_of_lt (hd e he).2⟩) ?_ ?_
    · rw [hval e.1 (hd e he).2]; exact (hd e he).1
    · exact uniq_same (S := fun y => ∃ e ∈ d, e.1 = y) (fun y ⟨e, he, hy⟩ => hy ▸ hkey e he) (fun e he => ⟨e, he, rfl⟩) hdu
    · intro y hy z hz e
      refine hnames y hy z hz ?_
      simpa [Store.setValue, hst] using e

/-- The example of the documentation, in `ℤ/7ℤ` instead of the default group: 2 is in `[0, 5)`. -/
example (env : Env (ZMod 7)) (rng : Nat → Nat) (msg : String) :
    ∃ t w1, rangeOnlyStmt (Ex.P 1) (Ex.P 3) 0 5 0 2 ⟨exNeStore, rng⟩ = .ok (t, w1) ∧
      ∃ nizk t' w', prove (LeafProver (ZMod 7)) env t [] msg w1 = .ok ((nizk, t'), w') ∧
        verify env w'.store t' nizk msg = .ok true := by
  refine C74_range_only env ⟨exNeStore, rng⟩ (Ex.P 1) (Ex.P 3) 0 5 2 0 2 (by decide) (by decide) (by decide) rfl rfl
    (by decide) (by decide) (by decide) [] msg (by simp) trivial ?_
  intro y _ z _ e
  have e := congrArg String.length e
  simpa [exNeStore] using e

end Zksk.Props
