import Verif.Lemmas.Tutorial
import Verif.Lemmas.OwnLib
import Verif.Props.Own
import Verif.Props.SoundStmt

/-! # C84-C86: primitives of the tutorial -/

set_option linter.unusedSectionVars false

namespace Zksk.Props

open Spec

variable {E : Type} [AddCommGroup E] [DecidableEq E]

/-! ### C84 -/

private theorem unsimulated {sp : ExtSpec E} (h : OnlyConstructs sp) : Unsimulated sp := by
  rintro w r hr
  obtain ⟨cls, c, rfl⟩ := h
  exact absurd hr (by simp [ExtSpec.onlyConstructs, raise_ne])

private theorem hasUnsim {t : Stmt E} (h : UsesPlain t) : HasUnsim t := by
  obtain ⟨e, h1, h2⟩ := h
  exact ⟨e, h1, unsimulated h2⟩

/-- **C84** (the claim of the documentation is false) No statement with a part whose class only overrides
`construct_stmt` can be simulated: `simulate()` raises for every challenge and all random draws, and
`prepare_simulate_proof()` of the statement itself raises `StatementSpecError`. -/
theorem C84_simulation_refused (env : Env E) (t : Stmt E) (h : UsesPlain t) (c : Option Int) (w : World) :
    (∃ e, simulateTop env t c w = .error e) ∧
    ∀ cls construct b v k k', t = .leaf (.ext ⟨.onlyConstructs cls construct, b, v, k, k'⟩) →
      simulateTop env t c w = .error .statementSpec := by
  constructor
  · cases hr : simulateTop env t c w with
    | error e => exact ⟨e, rfl⟩
    | ok r =>
      exfalso
      unfold simulateTop at hr
      obtain ⟨t1, w1, h1, _⟩ := pm_bind.mp hr
      exact prepareSim_refused _ (hasUnsim_blank (by cases t <;> [cases ‹Leaf E›; skip; skip] <;> rfl) (hasUnsim h)) _ _ h1
  · rintro cls construct b v k k' rfl
    rfl

/-- **C84** Nor can anything be proved when such statements occur in two clauses of a disjunction, wherever the
disjunction occurs in the statement. -/
theorem C84_or_refused (env : Env E) (t : Stmt E) (b : Bool) (subs : List (Stmt E)) (hp : PartOf (.or b subs) t) (i j : Nat)
    (t1 t2 : Stmt E) (hne : i ≠ j) (h1 : subs[i]? = some t1) (h2 : subs[j]? = some t2) (u1 : UsesPlain t1)
    (u2 : UsesPlain t2) (d : Dict Int) (msg : String) (w : World) :
    ∃ e, prove (LeafProver E) env t d msg w = .error e := by
  cases hr : prove (LeafProver E) env t d msg w with
  | error e => exact ⟨e, rfl⟩
  | ok r =>
    exfalso
    unfold prove at hr
    obtain ⟨⟨p?, t'⟩, w1, h3, h4⟩ := pm_bind.mp hr
    cases p? with
    | none => exact (raise_ne.mp h4).elim
    | some p =>
      exact getProver_stuck hp ⟨b, subs, i, j, t1, t2, rfl, hne, h1, h2, hasUnsim u1, hasUnsim u2⟩ _ _ _ _ _ h3

/-- **C84** When they occur in one clause of a disjunction, then this is the clause that is proved: no prover ever simulates
it, and so everybody knows which clause the prover of a proof has proved. -/
theorem C84_clause_revealed (b : Bool) (subs : List (Stmt E)) (d : Dict Int) (w w' : World) (p : StmtProver E) (t' : Stmt E)
    (i : Nat) (t : Stmt E) (hi : subs[i]? = some t) (hu : UsesPlain t)
    (h : (PTree.getProver (.or b subs) d : PM (Option (StmtProver E) × Stmt E)) w = .ok ((some p, t'), w')) :
    ∃ stmts sub sims, p = .or false i stmts sub sims := by
  obtain ⟨_, k, _, stmts, sub, sims, h1, _, _, _, h2⟩ := getProver_or_unsim h
  rw [h2 i t hi (hasUnsim hu)]
  exact ⟨stmts, sub, sims, h1⟩

/-- The precommitment of statements that only construct something. -/
private def isEmpty (sp : ExtSpec E) (v : Val E) : Prop := OnlyConstructs sp ∧ v = .list []

private theorem not_writes {t : Stmt E} {x : Sec} : ¬ AtLeaf (leafWrites (plainProfile (E := E))) t x := by
  intro h
  induction h with
  | leaf l x h => cases l <;> exact h
  | all _ _ _ _ _ _ ih => exact ih
  | any _ _ _ _ _ _ ih => exact ih

private theorem store_ext {σ τ : Store} (h : ∀ x, σ.key x = τ.key x) : σ = τ := by
  obtain ⟨n, v⟩ := σ
  obtain ⟨n', v'⟩ := τ
  have h1 : n = n' := funext fun x => congrArg Prod.fst (h x)
  have h2 : v = v' := funext fun x => congrArg Prod.snd (h x)
  rw [h1, h2]

private theorem separate_plain (t : Stmt E) : Separate (plainProfile (E := E)) t := by
  induction t using Tree.ind with
  | leaf l => exact .leaf l
  | and b subs ih => exact .all _ _ ih fun _ _ _ _ _ _ _ _ h => (not_writes h).elim
  | or b subs ih => exact .any _ _ ih fun _ _ _ _ _ _ _ _ h => (not_writes h).elim

private theorem every_imp {Q R : Leaf E → Prop} (hi : ∀ l, Q l → R l) {t : Stmt E} (h : EveryLeaf Q t) : EveryLeaf R t := by
  induction h with
  | leaf l h => exact .leaf l (hi l h)
  | all b subs hne _ ih => exact .all _ _ hne ih
  | any b subs hne _ ih => exact .any _ _ hne ih

private theorem canProve {q : Nat} {σ : Store} {d : Dict Int} {e : Ext E} (h : PlainLeaf q σ d (.ext e)) :
    CanProve plainProfile q σ d (isEmpty e.spec) e.spec := by
  obtain ⟨⟨cls, c, hsp⟩, k, h1, h2, h3, h4, h5, h6⟩ := h
  intro w hw
  have hσ : w.store = σ := store_ext fun x => hw x (.inl trivial)
  refine ⟨.list [], w, k, by rw [hsp]; rfl, fun _ _ => rfl, rfl, hσ ▸ h1, .inl ⟨⟨cls, c, hsp⟩, by simp⟩, h2, h3, h4,
    fun x hx => ⟨σ, _, k, h1, hx⟩, fun _ _ => trivial, hσ ▸ h5, hσ ▸ h6, ⟨cls, c, hsp⟩, rfl⟩

private theorem proved_plain {q : Nat} {σ : Store} {d : Dict Int} {t : Stmt E} (h : EveryLeaf (PlainLeaf q σ d) t)
    (h' : ProvedLeaf (RepTrue σ d) t) : ProvedLeaf (LeafTrue plainProfile q σ d isEmpty) t := by
  induction h' with
  | leaf l h' =>
    cases h with
    | leaf _ h =>
      cases l with
      | dlrep s => exact .leaf _ h'
      | ext e => exact .leaf _ (canProve h)
  | all subs _ ih =>
    cases h with
    | all _ _ _ h => exact .all _ fun t ht => ih t ht (h t ht)
  | any subs hex _ ih =>
    cases h with
    | any _ _ _ h => exact .any _ hex fun t ht hs => ih t ht hs (h t ht)

private theorem ready_plain {q : Nat} {d : Dict Int} {t : Stmt E} {w : World}
    (hall : EveryLeaf (PlainLeaf q (updateSecretValues w.store d) d) t)
    (hproved : ProvedLeaf (RepTrue (updateSecretValues w.store d) d) t) (hplaced : Placed plainProfile t)
    (htidy : Tidy plainProfile w.store.name t) (hd : d.Uniq (updateSecretValues w.store d)) :
    Spec.Ready plainProfile q (updateSecretValues w.store d) d isEmpty t where
  sound := every_imp (fun l h => by
    cases l with
    | dlrep s => exact h
    | ext e => exact ⟨.inl h.1, fun _ _ => trivial⟩) hall
  holds := proved_plain hall hproved
  own := every_imp (fun l _ x _ h => (not_writes h).elim) hall
  placed := hplaced
  separate := separate_plain t
  tidy := by rw [updateSecretValues_name]; exact htidy
  args := fun _ _ => not_writes
  uniq := hd
  hashable := by rintro sp s ⟨_, h⟩; cases h

/-- **C84** (the part that holds) Without simulations such classes work.  Let `t` be composed of true representations and
of statements that only construct something, which is true, the latter outside of disjunctions; the usual rules for the
names of the secrets of disjunctions are kept.  Then `prove()` succeeds for all messages and random draws, changing nothing
but the values of the arguments, and every verifier with an object for the same statement accepts. -/
theorem C84_complete_partial (q : Nat) (env : Env E) (t : Stmt E) (d : Dict Int) (w : World) (msg : String)
    (ht : ∀ s, t ≠ .leaf (.dlrep s)) (hall : EveryLeaf (PlainLeaf q (updateSecretValues w.store d) d) t)
    (hproved : ProvedLeaf (RepTrue (updateSecretValues w.store d) d) t) (hplaced : Placed plainProfile t)
    (htidy : Tidy plainProfile w.store.name t) (hd : d.Uniq (updateSecretValues w.store d))
    (hna : Named plainProfile w.store.name t) :
    ∃ nizk t' w', prove (LeafProver E) env t d msg w = .ok ((nizk, t'), w') ∧
      w'.store = updateSecretValues w.store d ∧
      ∀ (σv : Store) (tv : Stmt E), VerifierFor σv tv t → Named plainProfile σv.name t →
        verify env σv tv nizk msg = .ok true := by
  obtain ⟨nizk, t', w', h1, _, h3, h4, h5⟩ := C54_proofs_accepted plainProfile q isEmpty env t d w msg ht
    (ready_plain hall hproved hplaced htidy hd)
  refine ⟨nizk, t', w', h1, store_ext fun x => h3 x not_writes, fun σv tv hv hnv => (h5 σv tv hv hna hnv).1 ?_⟩
  refine every_imp (fun l h => ?_) h4
  cases l with
  | dlrep s => trivial
  | ext e =>
    obtain ⟨⟨cls, c, hsp⟩, _⟩ := h
    show e.spec.validate _ = _
    rw [hsp]; rfl

/-- **C84** (the part that holds) The same for the interactive protocol; on its own a statement must construct a
conjunction. -/
theorem C84_protocol_partial (q : Nat) (env : Env E) (t : Stmt E) (d : Dict Int) (w : World)
    (ht : ∀ s, t ≠ .leaf (.dlrep s)) (hall : EveryLeaf (PlainLeaf q (updateSecretValues w.store d) d) t)
    (hproved : ProvedLeaf (RepTrue (updateSecretValues w.store d) d) t) (hplaced : Placed plainProfile t)
    (htidy : Tidy plainProfile w.store.name t) (hd : d.Uniq (updateSecretValues w.store d))
    (hna : Named plainProfile w.store.name t) (σv : Store) (tv : Stmt E) (hv : VerifierFor σv tv t)
    (hand : ∀ e, tv = .leaf (.ext e) → ∀ v k, e.spec.construct σv v = .ok k → ∃ b subs, k = .and b subs)
    (hnv : Named plainProfile σv.name t) :
    ∃ p t' w1 w2, (PTree.getProver t d : PM (Option (StmtProver E) × Stmt E)) w = .ok ((some p, t'), w1) ∧
      sigmaProtocol env σv tv p w1 = .ok (true, w2) :=
  C54_protocol_accepts plainProfile q isEmpty env t d w ht (ready_plain hall hproved hplaced htidy hd)
    (by rintro sp v ⟨⟨cls, c, rfl⟩, _⟩; rfl) σv tv hv hand hna hnv

/-! ### C85 -/

/-- The statement that is constructed. -/
private def built (s : ElGamal E) (σ : Store) : Core E :=
  .and false [.leaf ⟨s.c1, [s.g], [s.randomizer], knownValues σ [s.randomizer] [], false⟩,
    .leaf ⟨s.c2, [s.h, s.g], [s.randomizer, s.msg], knownValues σ [s.randomizer, s.msg] [], false⟩]

private theorem construct_of {s : ElGamal E} (h : s.h.grp = s.g.grp) (σ : Store) (v : Val E) :
    s.construct σ v = .ok (built s σ) := by
  unfold ElGamal.construct built
  rw [mkDLRep_of (g := s.g.grp) (by simp) (by simp), bind_ok, mkDLRep_of (g := s.g.grp) (by simp) (by simp [h]), bind_ok]
  rfl

private theorem construct_inv {s : ElGamal E} {σ : Store} {v : Val E} {k : Core E} (h : s.construct σ v = .ok k) :
    k = built s σ := by
  unfold ElGamal.construct at h
  obtain ⟨p1, h1, h⟩ := bind_ok_iff.mp h
  obtain ⟨p2, h2, h⟩ := bind_ok_iff.mp h
  obtain ⟨rfl, _⟩ := mkDLRep_ok h1
  obtain ⟨rfl, _⟩ := mkDLRep_ok h2
  obtain ⟨rfl, _⟩ := mkAnd_ok h
  rfl

private theorem orFree (s : ElGamal E) (σ : Store) : OrFree (built s σ) := by
  refine .all _ _ fun t ht => ?_
  simp only [List.mem_cons, List.not_mem_nil, or_false] at ht
  rcases ht with rfl | rfl <;> exact .rep _

private theorem oneOrder {s : ElGamal E} (h : s.h.grp = s.g.grp) (σ : Store) : OneOrder s.g.grp.order (built s σ) := by
  intro x b hx
  simp [built, terms, termsL] at hx
  rcases hx with ⟨_, rfl⟩ | ⟨_, rfl⟩ | ⟨_, rfl⟩ <;> simp [h]

private theorem plainLeaf {s : ElGamal E} {σ : Store} {d : Dict Int} {r m : Int} (hord : s.g.grp.order ≠ 0)
    (hgrp : ∀ p ∈ [s.c1, s.c2, s.h], p.grp = s.g.grp) (htor : ∀ p ∈ [s.g, s.h], (s.g.grp.order : Int) • p.val = 0)
    (hr : σ.value s.randomizer = some r) (hm : σ.value s.msg = some m) (h : Encrypts s r m) (hd : Told σ d)
    (f : Bool) (v : Val E) (k k' : Option (Core E)) :
    PlainLeaf s.g.grp.order σ d (.ext ⟨s.spec, f, v, k, k'⟩) := by
  simp only [List.mem_cons, List.not_mem_nil, or_false, forall_eq_or_imp, forall_eq] at hgrp htor
  obtain ⟨g1, g2, g3⟩ := hgrp
  have hone := oneOrder g3 σ
  refine ⟨⟨_, _, rfl⟩, built s σ, construct_of g3 σ (.list []), ?_, ?_, hone, ?_, composable_orFree (orFree s σ) hone⟩
  · simp [built, Solid, SolidL, g1, g2, g3, hord]
  · intro x b hx
    rw [hone x b hx]
    simp [built, terms, termsL] at hx
    rcases hx with ⟨_, rfl⟩ | ⟨_, rfl⟩ | ⟨_, rfl⟩ <;> simp [htor]
  · refine .all _ fun t ht => ?_
    simp only [List.mem_cons, List.not_mem_nil, or_false] at ht
    rcases ht with rfl | rfl
    · refine satisfied_rep hd rfl (by simp [hr]) (.rep _ _ (by simp [g1]) ?_)
      simp [valueOf, Store.key, hr, h.1]
    · refine satisfied_rep hd rfl (by simp [hr, hm]) (.rep _ _ (by simp [g2, g3]) ?_)
      simp [valueOf, Store.key, hr, hm, h.2]

private theorem occurs {s : ElGamal E} {x : Sec} {f : Bool} {v : Val E} {k k' : Option (Core E)}
    (h : AtLeaf (leafOccurs plainProfile) (.leaf (.ext ⟨s.spec, f, v, k, k'⟩) : Stmt E) x) : x = s.randomizer ∨ x = s.msg := by
  cases h with
  | leaf _ _ h =>
    obtain ⟨σ, v, k, h1, h2⟩ := h
    obtain rfl := construct_inv (s := s) (v := v) h1
    simp [built, secrets, secretsL] at h2
    exact h2

private theorem named {s : ElGamal E} {name : Sec → String} (h : name s.randomizer ≠ name s.msg) :
    Named plainProfile name s.stmt := by
  intro x y hx hy e
  rcases occurs hx with rfl | rfl <;> rcases occurs hy with rfl | rfl <;>
    first | rfl | exact (h e).elim | exact (h e.symm).elim

private theorem verifierFor (s : ElGamal E) (σv : Store) : VerifierFor σv s.stmt s.stmt := by
  refine .leaf _ _ ⟨rfl, rfl, fun σ v k hk => ?_⟩
  have hk : s.construct σ v = .ok k := hk
  have hg : s.h.grp = s.g.grp := by
    unfold ElGamal.construct at hk
    obtain ⟨p1, _, hk⟩ := bind_ok_iff.mp hk
    obtain ⟨p2, h2, _⟩ := bind_ok_iff.mp hk
    exact (mkDLRep_ok h2).2.2 _ (by simp) _ (by simp)
  obtain rfl := construct_inv hk
  exact ⟨built s σv, construct_of hg σv v, rfl, rfl⟩

private theorem own {s s' : ElGamal E} {ρ : Sec → Sec} (σ : Store) (h1 : s'.c1 = s.c1) (h2 : s'.c2 = s.c2)
    (hg : s'.g = s.g) (hh : s'.h = s.h) (hr : s'.randomizer = ρ s.randomizer) (hm : s'.msg = ρ s.msg) :
    Alike (LeafOwn ρ id σ) s'.stmt s.stmt := by
  refine .leaf _ _ ⟨rfl, rfl, fun v => ?_, rfl, trivial⟩
  show SameOutcome _ (s'.construct σ v) (s.construct (seenThrough ρ id σ) v)
  unfold ElGamal.construct
  rw [h1, h2, hg, hh]
  refine sameOutcome_bind (own_mkDLRep ρ σ _ _ (by simp [hr]) _ _ _) fun p1 p1' e1 => ?_
  refine sameOutcome_bind (own_mkDLRep ρ σ _ _ (by simp [hr, hm]) _ _ _) fun p2 p2' e2 => ?_
  exact own_mkAnd (.cons (.leaf _ _ e1) (.cons (.leaf _ _ e2) .nil))

/-- **C85** Completeness of the proof of plaintext knowledge.  Let `(c1, c2) = (r G, r H + m G)` in a group of order `q`,
where `r` and `m` are the values that the two secrets have after the explicit values were stored.  Then `prove()`
succeeds, for every message and all random draws, changes nothing but the values of the arguments, and `verify()` is `True` for every verifier
with an object for the same ciphertext and key, who uses secrets of its own with different names. -/
theorem C85_complete (env : Env E) (s : ElGamal E) (d : Dict Int) (w : World) (msg : String) (r m : Int)
    (hord : s.g.grp.order ≠ 0) (hgrp : ∀ p ∈ [s.c1, s.c2, s.h], p.grp = s.g.grp)
    (htor : ∀ p ∈ [s.g, s.h], (s.g.grp.order : Int) • p.val = 0)
    (hr : (updateSecretValues w.store d).value s.randomizer = some r)
    (hm : (updateSecretValues w.store d).value s.msg = some m) (h : Encrypts s r m)
    (hd : d.Uniq (updateSecretValues w.store d)) (hn : w.store.name s.randomizer ≠ w.store.name s.msg) :
    ∃ nizk t' w', prove (LeafProver E) env s.stmt d msg w = .ok ((nizk, t'), w') ∧
      w'.store = updateSecretValues w.store d ∧
      ∀ (σv : Store) (s' : ElGamal E), s'.c1 = s.c1 → s'.c2 = s.c2 → s'.g = s.g → s'.h = s.h →
        σv.name s'.randomizer ≠ σv.name s'.msg → verify env σv s'.stmt nizk msg = .ok true := by
  obtain ⟨nizk, t', w', h1, h2, h3⟩ := C84_complete_partial s.g.grp.order env s.stmt d w msg (by intro s'; simp [ElGamal.stmt])
    (.leaf _ (plainLeaf hord hgrp htor hr hm h (told_of_uniq hd) ..)) (.leaf _ trivial) (.leaf _) (.leaf _) hd (named hn)
  refine ⟨nizk, t', w', h1, h2, fun σv s' e1 e2 e3 e4 hn' => ?_⟩
  have hne : s.msg ≠ s.randomizer := fun e => hn (by rw [e])
  rw [C72_verify (fun x => if x = s.randomizer then s'.randomizer else s'.msg) id Function.injective_id env σv _ _
    (own σv e1 e2 e3 e4 (by simp) (by simp [hne]))]
  refine h3 _ _ (verifierFor s _) (named ?_)
  simpa [seenThrough, hne] using hn'

/-- **C85** The interactive protocol ends with acceptance. -/
theorem C85_protocol (env : Env E) (s : ElGamal E) (d : Dict Int) (w : World) (r m : Int)
    (hord : s.g.grp.order ≠ 0) (hgrp : ∀ p ∈ [s.c1, s.c2, s.h], p.grp = s.g.grp)
    (htor : ∀ p ∈ [s.g, s.h], (s.g.grp.order : Int) • p.val = 0)
    (hr : (updateSecretValues w.store d).value s.randomizer = some r)
    (hm : (updateSecretValues w.store d).value s.msg = some m) (h : Encrypts s r m)
    (hd : d.Uniq (updateSecretValues w.store d)) (hn : w.store.name s.randomizer ≠ w.store.name s.msg)
    (σv : Store) (s' : ElGamal E) (e1 : s'.c1 = s.c1) (e2 : s'.c2 = s.c2) (e3 : s'.g = s.g) (e4 : s'.h = s.h)
    (hn' : σv.name s'.randomizer ≠ σv.name s'.msg) :
    ∃ p t' w1 w2, (PTree.getProver s.stmt d : PM (Option (StmtProver E) × Stmt E)) w = .ok ((some p, t'), w1) ∧
      sigmaProtocol env σv s'.stmt p w1 = .ok (true, w2) := by
  have hne : s.msg ≠ s.randomizer := fun e => hn (by rw [e])
  obtain ⟨p, t', w1, w2, h1, h2⟩ := C84_protocol_partial s.g.grp.order env s.stmt d w (by intro s'; simp [ElGamal.stmt])
    (.leaf _ (plainLeaf hord hgrp htor hr hm h (told_of_uniq hd) ..)) (.leaf _ trivial) (.leaf _) (.leaf _) hd (named hn)
    (seenThrough (fun x => if x = s.randomizer then s'.randomizer else s'.msg) id σv) s.stmt (verifierFor s _)
    (by
      intro e he v k hk
      simp only [ElGamal.stmt, Tree.leaf.injEq, Leaf.ext.injEq] at he
      subst he
      obtain rfl := construct_inv (s := s) (v := v) hk
      exact ⟨_, _, rfl⟩)
    (named (by simpa [seenThrough, hne] using hn'))
  refine ⟨p, t', w1, w2, h1, ?_⟩
  rw [C72_protocol (fun x => if x = s.randomizer then s'.randomizer else s'.msg) id Function.injective_id env σv _ _
    (own σv e1 e2 e3 e4 (by simp) (by simp [hne]))]
  exact h2

private theorem index_int {s : DLRep E} {c : Int} {r com : Val E} (h : Eqns (.leaf s) c r com) {i : Nat} (hi : i < s.bases.length)
    {y : Val E} (hy : r.index i = .ok y) : ∃ n : Int, y = .int n := by
  cases h with
  | rep _ _ _ vs ws hr _ hws _ =>
    have hl := elems_index hr hy
    have h1 : (vs.take s.bases.length)[i]? = some y := by rw [List.getElem?_take, if_pos hi, hl]
    rw [hws, List.getElem?_map] at h1
    cases hw : ws[i]? with
    | none => simp [hw] at h1
    | some n => simp [hw] at h1; exact ⟨n, h1.symm⟩

/-- An accepted answer has an integer for the randomizer, the same at both places, and one for the message. -/
private theorem answer {s : ElGamal E} {σ : Store} {com r : Val E} {c : Int}
    (h : verifyResponse σ (built s σ) com c r = .ok true) : ∃ y z, ElGamalAnswer r y z := by
  obtain ⟨⟨ρ, ha⟩, he⟩ := verifyResponse_iff.mp h
  unfold built at ha he
  cases ha with
  | all _ _ _ _ ri hri ha =>
    have a1 := ha 0 _ rfl
    have a2 := ha 1 _ rfl
    cases he with
    | all _ _ _ _ coms ri' hlen hri' he =>
      match coms, hlen, he with
      | [x1, x2], _, he =>
        have b1 := he 0 _ _ rfl rfl
        have b2 := he 1 _ _ rfl rfl
        have i0 := hri 0 (by simp)
        have i1 := hri 1 (by simp)
        have r0 : ri' 0 = ri 0 := by have := hri' 0 (by simp); rw [i0] at this; exact (Except.ok.inj this).symm
        have r1 : ri' 1 = ri 1 := by have := hri' 1 (by simp); rw [i1] at this; exact (Except.ok.inj this).symm
        rw [r0] at b1
        rw [r1] at b2
        cases a1 with
        | rep _ _ _ a1 =>
          cases a2 with
          | rep _ _ _ a2 =>
            have c1 := a1 0 _ rfl
            have c2 := a2 0 _ rfl
            have c3 := a2 1 _ rfl
            obtain ⟨y, hy⟩ := index_int b1 (by simp) c1
            obtain ⟨z, hz⟩ := index_int b2 (by simp) c3
            rw [hy] at c1 c2
            rw [hz] at c3
            exact ⟨y, z, _, _, i0, c1, i1, c2, c3⟩

/-- **C85** Knowledge: from accepted answers to two challenges with the same commitment one computes the message and the
randomness of the ciphertext, `u (y - y')` for the two responses, where `u` is the inverse of the difference of the
challenges modulo the exponent of the group. -/
theorem C85_extraction (s : ElGamal E) (σ : Store) (t1 : Stmt E) (v com a a' : Val E) (c c' u Q : Int)
    (hall : ∀ x : E, Q • x = 0) (hu : u * (c - c') % Q = 1 % Q)
    (hd : digestPrecommitment σ (Tree.freshVerifier s.stmt) v = .ok t1)
    (h : verifyResponse σ t1 com c a = .ok true) (h' : verifyResponse σ t1 com c' a' = .ok true) :
    ∃ y y' z z', ElGamalAnswer a y z ∧ ElGamalAnswer a' y' z' ∧ Encrypts s (u * (y - y')) (u * (z - z')) := by
  obtain ⟨S, k, hdig, hk⟩ := verifyResponse_stmt hd h
  rw [hk] at h h'
  obtain ⟨hc, _⟩ := digested_ext (digestedTop_digested hdig)
  obtain rfl := construct_inv (s := s) (v := v) hc
  obtain ⟨X, hX, hocc⟩ := C18_and_extraction σ _ com a a' c c' u Q (orFree s σ)
    (by simp [built, WellFormed, WellFormedL]) (by simp [built, Killed, KilledL, hall]) hu h h'
  obtain ⟨y, z, b, b2, e0, e1, e2, e3, e4⟩ := answer h
  obtain ⟨y', z', b', b2', e0', e1', e2', e3', e4'⟩ := answer h'
  have x1 := hocc s.randomizer y y' (.all _ _ _ _ 0 _ _ _ rfl e0 (.rep _ _ 0 _ _ rfl e1))
    (.all _ _ _ _ 0 _ _ _ rfl e0' (.rep _ _ 0 _ _ rfl e1'))
  have x2 := hocc s.msg z z' (.all _ _ _ _ 1 _ _ _ rfl e2 (.rep _ _ 1 _ _ rfl e4))
    (.all _ _ _ _ 1 _ _ _ rfl e2' (.rep _ _ 1 _ _ rfl e4'))
  refine ⟨y, y', z, z', ⟨b, b2, e0, e1, e2, e3, e4⟩, ⟨b', b2', e0', e1', e2', e3', e4'⟩, ?_⟩
  unfold built at hX
  cases hX with
  | all _ _ _ hX =>
    have p1 := hX (.leaf ⟨s.c1, [s.g], [s.randomizer], knownValues σ [s.randomizer] [], false⟩) (by simp)
    have p2 := hX (.leaf ⟨s.c2, [s.h, s.g], [s.randomizer, s.msg], knownValues σ [s.randomizer, s.msg] [], false⟩) (by simp)
    cases p1 with
    | rep _ _ _ p1 =>
      cases p2 with
      | rep _ _ _ p2 =>
        simp [x1] at p1
        simp [x1, x2] at p2
        exact ⟨p1, p2⟩

/-- **C85** Conjunctions of such proofs and of representations prove knowledge of values, one for each secret, such that
all the ciphertexts are encryptions of the values of their messages with the values of their randomizers. -/
theorem C85_conjunctions (σ : Store) (t t1 : Stmt E) (v com a a' : Val E) (c c' u Q : Int)
    (ht : EveryLeaf (LeafOK fun sp => ∃ s : ElGamal E, sp = s.spec) t) (hn : NoOr t)
    (hall : ∀ x : E, Q • x = 0) (hu : u * (c - c') % Q = 1 % Q)
    (hd : digestPrecommitment σ (Tree.freshVerifier t) v = .ok t1)
    (h : verifyResponse σ t1 com c a = .ok true) (h' : verifyResponse σ t1 com c' a' = .ok true) :
    ∃ X : Key → Int, Truth (fun sp X => ∀ s : ElGamal E, sp = s.spec →
      Encrypts s (X (σ.key s.randomizer)) (X (σ.key s.msg))) σ t X := by
  obtain ⟨X, hX, _⟩ := C58_conjunctions (fun sp X => ∀ s : ElGamal E, sp = s.spec →
      Encrypts s (X (σ.key s.randomizer)) (X (σ.key s.msg))) (fun sp => ∃ s : ElGamal E, sp = s.spec) σ (by
    rintro sp ⟨s, rfl⟩ v k hk _
    obtain rfl := construct_inv (s := s) (v := v) hk
    refine ⟨by simp [built, WellFormed, WellFormedL], orFree s σ, fun X hX s2 e => ?_⟩
    have hk2 : s2.construct σ v = .ok (built s σ) := by
      have := congrArg (fun sp => ExtSpec.construct sp σ v) e
      exact this.symm.trans hk
    rw [construct_inv hk2] at hX
    unfold built at hX
    cases hX with
    | all _ _ _ hX =>
      have p1 := hX (.leaf ⟨s2.c1, [s2.g], [s2.randomizer], knownValues σ [s2.randomizer] [], false⟩) (by simp)
      have p2 := hX (.leaf ⟨s2.c2, [s2.h, s2.g], [s2.randomizer, s2.msg], knownValues σ [s2.randomizer, s2.msg] [], false⟩)
        (by simp)
      cases p1 with
      | rep _ _ _ p1 =>
        cases p2 with
        | rep _ _ _ p2 =>
          simp at p1 p2
          exact ⟨p1, p2⟩)
    t t1 v com a a' c c' u Q ht hn hall hu hd h h'
  exact ⟨X, hX⟩

/-- The ciphertext `(2, 5) = (2·1, 2·3 + 6·1)` modulo 7 of the message 6, which is the value of secret 4, with randomness 2,
the value of secret 2. -/
def exEG : ElGamal (ZMod 7) := ⟨Ex.P 2, Ex.P 5, Ex.P 1, Ex.P 3, 4, 2⟩

/-- The hypotheses are met by `exEG`; for a conjunction of this proof with itself and a representation those of C84. -/
example (rng : Nat → Nat) (msg : String) (env : Env (ZMod 7)) :
    (∃ nizk t' w', prove (LeafProver (ZMod 7)) env exEG.stmt [(4, 6)] msg ⟨exNeStore, rng⟩ = .ok ((nizk, t'), w') ∧
      verify env ⟨exNeStore.name, fun _ => none⟩ (⟨Ex.P 2, Ex.P 5, Ex.P 1, Ex.P 3, 7, 8⟩ : ElGamal (ZMod 7)).stmt nizk msg =
        .ok true) := by
  obtain ⟨nizk, t', w', h1, _, h2⟩ := C85_complete env exEG [(4, 6)] ⟨exNeStore, rng⟩ msg 2 6 (by decide) (by decide)
    (by decide) rfl rfl (by unfold Encrypts; decide) ⟨rfl, trivial⟩ (by show exNeStore.name 2 ≠ exNeStore.name 4; decide)
  exact ⟨nizk, t', w', h1, h2 _ _ rfl rfl rfl rfl (by decide)⟩

/-- Two answers with the same commitment, to the challenges 0 and 1. -/
example : ∃ t1, digestPrecommitment exNeStore (Tree.freshVerifier exEG.stmt) (.list []) = .ok t1 ∧
    verifyResponse exNeStore t1 (.list [.pt (Ex.P 0), .pt (Ex.P 0)]) 0 (.list [.list [.int 0], .list [.int 0, .int 0]]) =
      .ok true ∧
    verifyResponse exNeStore t1 (.list [.pt (Ex.P 0), .pt (Ex.P 0)]) 1 (.list [.list [.int 2], .list [.int 2, .int 6]]) =
      .ok true :=
  ⟨_, rfl, by decide, by decide⟩

/-- The conjunction of `exEG` and of the representation `4 = x 2` of its randomness. -/
def exEGand : Stmt (ZMod 7) :=
  .and false [exEG.stmt, .leaf (.dlrep ⟨Ex.P 4, [Ex.P 2], [2], [(2, 2)], false⟩)]

private theorem exEGand_occurs {x : Sec} (h : AtLeaf (leafOccurs plainProfile) exEGand x) : x = 2 ∨ x = 4 := by
  unfold exEGand at h
  cases h with
  | all _ _ t _ ht h =>
    simp only [List.mem_cons, List.not_mem_nil, or_false] at ht
    rcases ht with rfl | rfl
    · exact occurs h
    · cases h with
      | leaf _ _ h => left; simpa [leafOccurs] using h

/-- The hypotheses of C84 are met by `exEGand`. -/
example (rng : Nat → Nat) (msg : String) (env : Env (ZMod 7)) :
    ∃ r w', prove (LeafProver (ZMod 7)) env exEGand [] msg ⟨exNeStore, rng⟩ = .ok (r, w') := by
  have hN : Named plainProfile exNeStore.name exEGand := by
    intro x y hx hy
    rcases exEGand_occurs hx with rfl | rfl <;> rcases exEGand_occurs hy with rfl | rfl <;> decide
  have hno : NoOr exEGand := .all _ _ fun t ht => by
    simp only [List.mem_cons, List.not_mem_nil, or_false] at ht
    rcases ht with rfl | rfl <;> exact .leaf _
  obtain ⟨nizk, t', w', h, _⟩ := C84_complete_partial 7 env exEGand [] ⟨exNeStore, rng⟩ msg (by simp [exEGand])
    (by
      refine .all _ _ (by simp) fun t ht => ?_
      simp only [List.mem_cons, List.not_mem_nil, or_false] at ht
      rcases ht with rfl | rfl
      · exact .leaf _ (plainLeaf (r := 2) (m := 6) (by decide) (by decide) (by decide) rfl rfl (by unfold Encrypts; decide)
          (by intro e he; simp at he) ..)
      · refine .leaf _ ⟨by simp [Solid, Ex.P, Ex.G], fun x b hx => ?_, fun x b hx => ?_⟩ <;>
          simp [terms] at hx <;> rw [hx.2] <;> decide)
    (by
      refine .all _ fun t ht => ?_
      simp only [List.mem_cons, List.not_mem_nil, or_false] at ht
      rcases ht with rfl | rfl
      · exact .leaf _ trivial
      · refine .leaf _ (.rep _ ?_ (.rep _ _ (by simp [Ex.P]) (by rfl)))
        intro x hx
        simp at hx; subst hx
        rfl)
    (noOr_placed hno) (noOr_tidy hno)
    trivial hN
  exact ⟨_, _, h⟩

/-- Disjunctions as in `C84_or_refused`, `C84_clause_revealed`. -/
example : UsesPlain exEGand := ⟨_, .all _ _ exEG.stmt (by simp) .leaf, _, _, rfl⟩

/-- The prover of a disjunction with one such clause exists, when the clause is the one to be proved. -/
example : ∃ p t' w', (PTree.getProver (.or false [exEGand, .leaf (.dlrep ⟨Ex.P 4, [Ex.P 2], [3], [], true⟩)])
    [] : PM (Option (StmtProver (ZMod 7)) × Stmt (ZMod 7))) ⟨exNeStore, fun _ => 1⟩ = .ok ((some p, t'), w') :=
  ⟨_, _, _, rfl⟩

/-! ### C86 -/

/-- Helper. -/
theorem tutorial_stmt (s : TutorialNotEqual E) :
    s.stmt = (⟨s.lhs0, s.generator0, s.lhs1, s.generator1, s.gen, s.x, s.alpha, s.beta, false⟩ : NotEqual E).stmt := rfl

/-- **C86** The class of the tutorial does the same as the one of the library without `bind`: for all points, secrets, heaps,
messages, proofs and random draws the calls return the same, and so the proofs made with one are accepted by the other. -/
theorem C86_same (env : Env E) (s : TutorialNotEqual E) (s' : NotEqual E) (h0 : s'.lhs0 = s.lhs0) (h1 : s'.lhs1 = s.lhs1)
    (hg : s'.g = s.generator0) (hh : s'.h = s.generator1) (hgen : s'.gen = s.gen) (hx : s'.x = s.x) (ha : s'.alpha = s.alpha)
    (hb : s'.beta = s.beta) (hbind : s'.bind = false) :
    (∀ d msg w, prove (LeafProver E) env s.stmt d msg w = prove (LeafProver E) env s'.stmt d msg w) ∧
    (∀ σ nizk msg, verify env σ s.stmt nizk msg = verify env σ s'.stmt nizk msg) ∧
    (∀ c w, simulateTop env s.stmt c w = simulateTop env s'.stmt c w) ∧
    ∀ σ (p : StmtProver E) w, sigmaProtocol env σ s.stmt p w = sigmaProtocol env σ s'.stmt p w := by
  have : s.stmt = s'.stmt := by
    rw [tutorial_stmt, ← h0, ← h1, ← hg, ← hh, ← hgen, ← hx, ← ha, ← hb, ← hbind]
  rw [this]
  exact ⟨fun _ _ _ => rfl, fun _ _ _ => rfl, fun _ _ => rfl, fun _ _ _ => rfl⟩

/-- **C86** Completeness: let all points be from one group of prime order, and `H0 = x h0`.  `prove()` succeeds, and for a
verifier who tells the secrets apart the verdict is `True` if `H1 ≠ x h1` and the blinder is not 0, and otherwise
`ValidationError` is raised. -/
theorem C86_complete (env : Env E) (s : TutorialNotEqual E) (d : Dict Int) (w : World) (msg : String) (x : Int)
    (hq : s.generator0.grp.order.Prime)
    (hgrp : ∀ p ∈ [s.lhs0, s.lhs1, s.generator1, s.gen], p.grp = s.generator0.grp)
    (htor : ∀ p ∈ [s.generator0, s.lhs0, s.generator1, s.lhs1], (s.generator0.grp.order : Int) • p.val = 0)
    (hpriv : [s.x, s.alpha, s.beta].Nodup) (hx : (updateSecretValues w.store d).value s.x = some x)
    (h0 : s.lhs0.val = x • s.generator0.val) (hd : d.Uniq (updateSecretValues w.store d))
    (hda : ∀ e ∈ d, e.1 ≠ s.alpha ∧ e.1 ≠ s.beta)
    (hnames : ([s.x, s.alpha, s.beta].map w.store.name).Nodup) :
    ∃ nizk t' w', prove (LeafProver E) env s.stmt d msg w = .ok ((nizk, t'), w') ∧
      ∀ σv : Store, ([s.x, s.alpha, s.beta].map σv.name).Nodup →
        (s.lhs1.val ≠ x • s.generator1.val → w.rng 0 % s.generator0.grp.order ≠ 0 →
          verify env σv s.stmt nizk msg = .ok true) ∧
        (s.lhs1.val = x • s.generator1.val ∨ w.rng 0 % s.generator0.grp.order = 0 →
          verify env σv s.stmt nizk msg = .error .validation) := by
  obtain ⟨nizk, t', w', h1, _, h2⟩ := C34_complete env
    ⟨s.lhs0, s.generator0, s.lhs1, s.generator1, s.gen, s.x, s.alpha, s.beta, false⟩ d w msg x hq hgrp htor hpriv hx h0 hd hda
    hnames
  exact ⟨nizk, t', w', h1, h2⟩

/-- **C86** Soundness: if, after some precommitment, the verifier accepts answers to two challenges that differ modulo the
order, with the same commitment, then there is an `x` with `H0 = x h0` and `H1 ≠ x h1`. -/
theorem C86_sound (s : TutorialNotEqual E) (σ : Store) (t1 : Stmt E) (v com r r' : Val E) (c c' : Int)
    (hq : s.generator0.grp.order.Prime) (hgrp : s.generator1.grp = s.generator0.grp)
    (htor : ∀ p ∈ [s.generator0, s.lhs0, s.generator1, s.lhs1], (s.generator0.grp.order : Int) • p.val = 0)
    (hg : s.generator0.val ≠ 0) (hd : digestPrecommitment σ (Tree.freshVerifier s.stmt) v = .ok t1)
    (htv : ∀ p, v = .pt p → (s.generator0.grp.order : Int) • p.val = 0)
    (hne : ¬ (s.generator0.grp.order : Int) ∣ c - c')
    (h : verifyResponse σ t1 com c r = .ok true) (h' : verifyResponse σ t1 com c' r' = .ok true) :
    ∃ x : Int, s.lhs0.val = x • s.generator0.val ∧ s.lhs1.val ≠ x • s.generator1.val := by
  obtain ⟨x, h1, h2, _⟩ := C35_accepted
    ⟨s.lhs0, s.generator0, s.lhs1, s.generator1, s.gen, s.x, s.alpha, s.beta, false⟩ σ t1 v com r r' c c' hq hgrp htor hg hd htv
    hne h h'
  exact ⟨x, h1, h2⟩

/-- The tutorial's own example, modulo 7: `2 = 2·1` and `5 ≠ 2·3`.  The hypotheses are those of C34 and C35, see there. -/
def exTutorial : TutorialNotEqual (ZMod 7) := ⟨Ex.P 2, Ex.P 5, Ex.P 1, Ex.P 3, Ex.P 1, 2, 3, 4⟩

example (msg : String) (env : Env (ZMod 7)) : ∃ nizk t' w',
    prove (LeafProver (ZMod 7)) env exTutorial.stmt [] msg ⟨exNeStore, fun _ => 3⟩ = .ok ((nizk, t'), w') ∧
      verify env exNeStore exTutorial.stmt nizk msg = .ok true := by
  obtain ⟨nizk, t', w', h1, h2⟩ := C86_complete env exTutorial [] ⟨exNeStore, fun _ => 3⟩ msg 2 (by decide : Nat.Prime 7)
    (by decide) (by decide) (by decide) rfl (by decide) trivial (by simp) (by decide)
  exact ⟨nizk, t', w', h1, (h2 exNeStore (by decide)).1 (by decide) (by decide)⟩

example : ∃ t1, digestPrecommitment exNeStore (Tree.freshVerifier exTutorial.stmt) (.pt (Ex.P 1)) = .ok t1 ∧
    verifyResponse exNeStore t1 (.list [.pt (Ex.P 0), .pt (Ex.P 0)]) 0
      (.list [.list [.int 0, .int 0], .list [.int 0, .int 0]]) = .ok true ∧
    verifyResponse exNeStore t1 (.list [.pt (Ex.P 0), .pt (Ex.P 0)]) 1
      (.list [.list [.int 2, .int 6], .list [.int 2, .int 6]]) = .ok true :=
  ⟨_, rfl, by decide, by decide⟩

end Zksk.Props
