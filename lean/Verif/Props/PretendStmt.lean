import Verif.Lemmas.PretendStmtRun
import Verif.Props.ExtHiding
import Verif.Props.Library
import Verif.Props.Fork
import Mathlib.SetTheory.Cardinal.Finite

/-! # C96: proofs of compositions with primitives and disjunctions show at most which clauses can be proved -/

set_option linter.unusedSectionVars false

namespace Zksk.Props

open Spec

variable {E : Type} [AddCommGroup E] [DecidableEq E]

/-- **C96** Let `t` be composed by `&` and `|` of representations and extended statements such that everything but the
clauses marked as simulated is true, and such that the precommitments of the extended ones can be imitated.  For every
challenge, the interactive runs of the prover, and the runs that an outsider makes who is told which clauses are marked
but has other numbers instead of the values of the secrets, who calls `precommit()` of no extended statement, and who
knows the challenge in advance, have the same distribution.  Neither raises an exception. -/
theorem C96_without_values (F : Profile E) (q M : Nat) (Z : ExtSpec E → Val E → Prop) (env : Env E) (c : Int)
    (t u : Stmt E) (d d' : Dict Int) (σ σs : Store) (hM : M ≠ 0) (hq : q ∣ M) (ht : ∀ s, t ≠ .leaf (.dlrep s))
    (h : Spec.Ready F q (updateSecretValues σ d) d Z t)
    (hb : EveryLeaf (LeafBlind M (updateSecretValues σ d) (updateSecretValues σs d')) t)
    (hl : ProvedLeaf (LeafHides F M (updateSecretValues σ d) (updateSecretValues σs d') d) t)
    (hu : Outsider (updateSecretValues σs d') d' t u) (hd' : d'.Uniq (updateSecretValues σs d'))
    (hn : Named F σ.name t) (hns : Named F σs.name t) :
    SameResults M (honestRunStmt env t d c) σ (pretendedRunStmt env u d' c) σs ∧
      Succeeds M (honestRunStmt env t d c) σ ∧ Succeeds M (pretendedRunStmt env u d' c) σs :=
  Clause.runs_pretended ⟨hM, hq, ht, h, hb, hl, hu, hd', hn, hns⟩ env c

/-- Equal up to a translation of random numbers means equally often. -/
private theorem numbers {α : Type} {M : Nat} {f g : PM α} {σ σ' : Store} (h : SameResults M f σ g σ') :
    ∃ N, ∀ n, N ≤ n → ∀ (rest : Nat → Nat) (v : α),
      Nat.card {y : Fin n → Fin M // ∃ w, f ⟨σ, tape y rest⟩ = .ok (v, w)} =
      Nat.card {y : Fin n → Fin M // ∃ w, g ⟨σ', tape y rest⟩ = .ok (v, w)} := by
  obtain ⟨N, hN⟩ := h
  have key : ∀ (x : Except Err (α × World)) (v : α), (∃ w, x = .ok (v, w)) ↔ x.map Prod.fst = .ok v := by
    intro x v
    cases x with
    | error e => simp [Except.map]
    | ok r => obtain ⟨r, w⟩ := r; simp [Except.map]
  refine ⟨N, fun n hn rest v => ?_⟩
  obtain ⟨e, he⟩ := hN n hn
  refine Nat.card_congr (e.subtypeEquiv fun y => ?_)
  rw [key, key, he y rest]

/-- **C96** In numbers: for every long enough block of random numbers below `M`, each precommitment and transcript is
made by the prover exactly as often as by the outsider. -/
theorem C96_same_distribution (F : Profile E) (q M : Nat) (Z : ExtSpec E → Val E → Prop) (env : Env E) (c : Int)
    (t u : Stmt E) (d d' : Dict Int) (σ σs : Store) (hM : M ≠ 0) (hq : q ∣ M) (ht : ∀ s, t ≠ .leaf (.dlrep s))
    (h : Spec.Ready F q (updateSecretValues σ d) d Z t)
    (hb : EveryLeaf (LeafBlind M (updateSecretValues σ d) (updateSecretValues σs d')) t)
    (hl : ProvedLeaf (LeafHides F M (updateSecretValues σ d) (updateSecretValues σs d') d) t)
    (hu : Outsider (updateSecretValues σs d') d' t u) (hd' : d'.Uniq (updateSecretValues σs d'))
    (hn : Named F σ.name t) (hns : Named F σs.name t) :
    ∃ N, ∀ n, N ≤ n → ∀ (rest : Nat → Nat) (v : Val E × Transcript E),
      Nat.card {y : Fin n → Fin M // ∃ w, honestRunStmt env t d c ⟨σ, tape y rest⟩ = .ok (v, w)} =
      Nat.card {y : Fin n → Fin M // ∃ w, pretendedRunStmt env u d' c ⟨σs, tape y rest⟩ = .ok (v, w)} :=
  numbers (C96_without_values F q M Z env c t u d d' σ σs hM hq ht h hb hl hu hd' hn hns).1

/-- **C96** If the outsider may choose one answer `a` of the hash function, they make the very non-interactive proofs of
the prover: the random numbers of the prover can be translated one-to-one into random numbers of the outsider such that
`prove()` makes the same proof if the hash function answers the outsider's question `x` by `a`, and otherwise as it
likes. -/
theorem C96_same_proofs (F : Profile E) (q M : Nat) (Z : ExtSpec E → Val E → Prop) (env : Env E) (henv : Readable env)
    (message : String) (t u : Stmt E) (d d' : Dict Int) (σ σs : Store) (hM : M ≠ 0) (hq : q ∣ M)
    (ht : ∀ s, t ≠ .leaf (.dlrep s)) (h : Spec.Ready F q (updateSecretValues σ d) d Z t)
    (hb : EveryLeaf (LeafBlind M (updateSecretValues σ d) (updateSecretValues σs d')) t)
    (hl : ProvedLeaf (LeafHides F M (updateSecretValues σ d) (updateSecretValues σs d') d) t)
    (hu : Outsider (updateSecretValues σs d') d' t u) (hd' : d'.Uniq (updateSecretValues σs d'))
    (hn : Named F σ.name t) (hns : Named F σs.name t) :
    ∃ N, ∀ n, N ≤ n → ∀ a, ∃ e : Equiv.Perm (Fin n → Fin M), ∀ (y : Fin n → Fin M) (rest : Nat → Nat),
      ∃ π x t' w w',
        prove (LeafProver E) (rehash env (answering env.sha x a)) t d message ⟨σ, tape y rest⟩ = .ok ((π, t'), w) ∧
        pretendedProofStmt env u d' a message ⟨σs, tape (e y) rest⟩ = .ok ((π, x), w') ∧ w.rng = w'.rng :=
  Clause.same_proofs ⟨hM, hq, ht, h, hb, hl, hu, hd', hn, hns⟩ env henv message

/-- **C96** In numbers, for every hash function and every encoding: over the long enough blocks of uniform numbers below
`M`, the prover makes every proof exactly as often as the outsider makes it with the answer that the hash function
gives to the question that goes with the proof. -/
theorem C96_proofs_distribution (F : Profile E) (q M : Nat) (Z : ExtSpec E → Val E → Prop) (env : Env E)
    (message : String) (t u : Stmt E) (d d' : Dict Int) (σ σs : Store) (hM : M ≠ 0) (hq : q ∣ M)
    (ht : ∀ s, t ≠ .leaf (.dlrep s)) (h : Spec.Ready F q (updateSecretValues σ d) d Z t)
    (hb : EveryLeaf (LeafBlind M (updateSecretValues σ d) (updateSecretValues σs d')) t)
    (hl : ProvedLeaf (LeafHides F M (updateSecretValues σ d) (updateSecretValues σs d') d) t)
    (hu : Outsider (updateSecretValues σs d') d' t u) (hd' : d'.Uniq (updateSecretValues σs d'))
    (hn : Named F σ.name t) (hns : Named F σs.name t) :
    ∃ N, ∀ n, N ≤ n → ∀ (rest : Nat → Nat) (π : NIZK E),
      Nat.card {y : Fin n → Fin M //
        ∃ t' w, prove (LeafProver E) env t d message ⟨σ, tape y rest⟩ = .ok ((π, t'), w)} =
      Nat.card {y : Fin n → Fin M //
        ∃ x w, pretendedProofStmt env u d' (env.sha x) message ⟨σs, tape y rest⟩ = .ok ((π, x), w)} := by
  obtain ⟨N, hN⟩ := Clause.same_numbers ⟨hM, hq, ht, h, hb, hl, hu, hd', hn, hns⟩ env message
  refine ⟨N, fun n hn rest π => ?_⟩
  obtain ⟨e, he⟩ := hN n hn rest π
  exact Nat.card_congr (e.subtypeEquiv he)

/-! ### The statements of the library -/

/-- What is needed, in addition to `LibLeaf`, of the statements of the library over groups of prime order `q`.  If it is
`proved`,
* for `DLNotEqual`, the logarithms are indeed different, and the points are multiples of the generator of the group,
* for `BBSPlusSignatureStmt`, the point of the signature and two generators of the key are multiples of the generator of
  `G1`, and the third generator of the key is not zero,
* it is no range proof.

Range proofs that are not proved are made without the value of `x`. -/
inductive LibHides (q : Nat) (σ : Store) (Priv : Sec → Prop) (proved : Bool) : Leaf E → Prop
  | rep (s : DLRep E) : LibHides q σ Priv proved (.dlrep s)
  | notEqual (s : NotEqual E) (a : Ext E) (ha : a.spec = s.spec) (hq : s.g.grp.order = q)
      (hgrp : ∀ p ∈ [s.lhs0, s.lhs1, s.h, s.gen], p.grp = s.g.grp) (hpriv : Priv s.alpha ∧ Priv s.beta ∧ ¬ Priv s.x)
      (htrue : proved = true → ∃ x δ : Int, σ.value s.x = some x ∧ s.lhs1.val ≠ x • s.h.val ∧
        x • s.h.val - s.lhs1.val = δ • s.gen.val ∧ (q : Int) • s.gen.val = 0) : LibHides q σ Priv proved (.ext a)
  | range (s : PowerTwo E) (a : Ext E) (ha : a.spec = s.spec) (hq : s.g.grp.order = q)
      (hgrp : s.com.grp = s.g.grp ∧ s.h.grp = s.g.grp) (hn : 1 ≤ s.numBits) (hp : s.isProver = false)
      (hnot : proved = false) : LibHides q σ Priv proved (.ext a)
  | signature (P : Pairing E) (s : BBS E) (gen : E) (a : Ext E) (ha : a.spec = s.spec gen) (hq : P.order = q)
      (hP : s.P = P) (hk : GoodKey P s.pk) (h3 : 3 ≤ s.vars.length) (hfit : s.vars.length ≤ s.pk.generators.length)
      (htrue : proved = true → ∃ sig g0 g1 g2 gs, ∃ a1 a2 α : Int, s.signature = some sig ∧
        s.pk.generators = g0 :: g1 :: g2 :: gs ∧ (q : Int) • gen = 0 ∧ g1.val = a1 • gen ∧ g2.val = a2 • gen ∧
        g2.val ≠ 0 ∧ sig.A = ⟨P.G1, α • gen⟩) : LibHides q σ Priv proved (.ext a)

/-- Helper: simulating the statements of the library does not depend on the heap. -/
theorem lib_blind {q : Nat} (hq : q ≠ 0) {σ σ1 σs : Store} {Priv : Sec → Prop} {b : Bool} {l : Leaf E} (h : LibHides q σ Priv b l) :
    LeafBlind q σ1 σs l := by
  cases h with
  | rep s => trivial
  | notEqual s a ha hq' hgrp hpriv _ =>
    obtain ⟨sp, fl, v, k, k'⟩ := a
    simp only at ha
    subst ha hq'
    refine ⟨⟨1, fun y => ⟨.pt ⟨s.gen.grp, ((y 0 : Nat) : Int) • s.gen.val⟩, fun rest => ⟨?_, ?_⟩⟩⟩,
      NotEqual.leafFor_self ..⟩
    all_goals
      refine (NotEqual.simPrecommit_of (s := s) hq ⟨_, tape y rest⟩).trans ?_
      simp only
      rw [tape_drop y rest, tape_mod y rest Nat.one_pos]
      rfl
  | range s a ha hq' hgrp hn hp _ =>
    obtain ⟨sp, fl, v, k, k'⟩ := a
    simp only at ha
    subst ha hq'
    refine ⟨⟨s.numBits, fun y => ?_⟩, PowerTwo.leafFor (s := s) (s' := s) rfl rfl rfl rfl σs (by simp [hp]) _ _ rfl rfl⟩
    have hdr : ∀ rest, PowerTwo.drawn s.order s.numBits (tape y rest) = PowerTwo.drawn s.order s.numBits (tape y fun _ => 0) := by
      intro rest
      unfold PowerTwo.drawn
      refine List.map_congr_left fun i hi => ?_
      rw [tape_lt y _ (List.mem_range.mp hi), tape_lt y _ (List.mem_range.mp hi)]
    obtain ⟨u, us, hu⟩ : ∃ u us, PowerTwo.drawn s.order s.numBits (tape y fun _ => 0) = u :: us := by
      have := PowerTwo.drawn_length s.order s.numBits (tape y fun _ => 0)
      match hd : PowerTwo.drawn s.order s.numBits (tape y fun _ => 0) with
      | [] => rw [hd] at this; simp at this; omega
      | u :: us => exact ⟨u, us, rfl⟩
    refine ⟨PowerTwo.message (⟨s.g.grp, u • s.h.val + s.com.val⟩ :: us.map fun u => ⟨s.g.grp, u • s.h.val⟩)
      (PowerTwo.sumRands s.order 0 1 (u :: us)), fun rest => ⟨(PowerTwo.simPrecommit_given (s := s) hq hgrp.2 hgrp.1 (w := ⟨σ1, tape y rest⟩)
      ((hdr rest).trans hu)).trans ?_, (PowerTwo.simPrecommit_given (s := s) hq hgrp.2 hgrp.1 (w := ⟨σs, tape y rest⟩)
      ((hdr rest).trans hu)).trans ?_⟩⟩ <;> (simp only; rw [tape_drop y rest])
  | signature P s gen a ha hq' hP hk h3 hfit _ =>
    obtain ⟨sp, fl, v, k, k'⟩ := a
    simp only at ha
    subst ha hq'
    obtain ⟨g0, gs, hg⟩ : ∃ g0 gs, s.pk.generators = g0 :: gs := by
      match hg : s.pk.generators with
      | [] => rw [hg] at hfit; simp only [List.length_nil] at hfit; omega
      | g0 :: gs => exact ⟨g0, gs, rfl⟩
    have hb : s.bases[0]? = some g0 := by
      unfold BBS.bases
      rw [hg, List.getElem?_take_of_lt (by omega)]; rfl
    have hord : g0.grp.order = P.order := by rw [hk.g1 g0 (by rw [hg]; simp)]; rfl
    refine ⟨⟨2, fun y => ⟨.dict [("A1", .pt ⟨g0.grp, ((y 0 : Nat) : Int) • gen⟩),
      ("A2", .pt ⟨g0.grp, ((y 1 : Nat) : Int) • gen⟩)], fun rest => ⟨?_, ?_⟩⟩⟩, BBS.leafFor hP hk gen gen σs s.signature ..⟩
    all_goals
      refine (BBS.simPrecommit_of gen hb (by rw [hord]; exact hq) ⟨_, tape y rest⟩).trans ?_
      simp only
      rw [tape_drop y rest, hord, tape_mod y rest Nat.two_pos, tape_mod y rest Nat.one_lt_two]
      rfl

/-- Helper: precommitments of the statements of the library can be imitated. -/
theorem lib_hides {q : Nat} (hq : q.Prime) {σ σs : Store} {d : Dict Int} {Priv : Sec → Prop} {l : Leaf E}
    (h : LibHides q σ Priv true l) : LeafHides (libProfile Priv) q σ σs d l := by
  cases h with
  | rep s => trivial
  | range s a ha hq' hgrp hn hp hnot => cases hnot
  | notEqual s a ha hq' hgrp hpriv htrue =>
    obtain ⟨sp, fl, v, k, k'⟩ := a
    simp only at ha
    subst ha hq'
    obtain ⟨x, δ, h1, h2, h3, h4⟩ := htrue rfl
    refine ⟨⟨1, ?_⟩, NotEqual.plain s, NotEqual.leafFor_self ..⟩
    exact NotEqual.imitates hq ⟨by rw [hgrp s.lhs1 (by simp), hgrp s.h (by simp)],
      by rw [hgrp s.gen (by simp), hgrp s.h (by simp)]⟩ ⟨fun e => hpriv.2.2 (e ▸ hpriv.1), fun e => hpriv.2.2 (e ▸ hpriv.2.1)⟩ h1 h2 h3 h4 _ (.inl hpriv.2.2)
  | signature P s gen a ha hq' hP hk h3 hfit htrue =>
    obtain ⟨sp, fl, v, k, k'⟩ := a
    simp only at ha
    subst ha hq'
    obtain ⟨sig, g0, g1, g2, gs, a1, a2, α, hsig, hg, htg, h1, h2, h20, hA⟩ := htrue rfl
    have k0 := hk.g1 g0 (by rw [hg]; simp)
    have k1 := hk.g1 g1 (by rw [hg]; simp)
    have k2 := hk.g1 g2 (by rw [hg]; simp)
    have hb : s.bases[0]? = some g0 ∧ s.bases[1]? = some g1 ∧ s.bases[2]? = some g2 := by
      unfold BBS.bases
      rw [hg]
      refine ⟨?_, ?_, ?_⟩ <;> rw [List.getElem?_take_of_lt (by omega)] <;> rfl
    have hord : g0.grp.order = P.order := by rw [k0]; rfl
    refine ⟨⟨2, ?_⟩, BBS.plain hP hk gen, BBS.leafFor hP hk gen gen σs s.signature ..⟩
    have := BBS.imitates (s := s) (gen := gen) (σ := σ) (σs := σs) (d := d) (a1 := a1)
      (a2 := a2) (α := α) hsig hb ⟨by rw [k0, k1], by rw [k0, k2], by rw [hA, k0]⟩ (by rw [hord]; exact hq)
      (by rw [hord]; exact htg) h1 h2 h20 (by rw [hA]) (libProfile Priv)
    rwa [hord] at this

/-- A prover with the heap `σ` and the explicit values `d` for the statement `t`, which is composed, with `&` and `|`,
nested in any way, of representations, inequality proofs, power-of-two range proofs and proofs of BBS+ signatures, over
groups of the prime order `q`, with range proofs in clauses marked as simulated only.  As in C66, everything but the
marked clauses is true, and the secrets that the statements make for themselves, `Priv`, are used in one place each. -/
structure LibProver (q : Nat) (Priv : Sec → Prop) (σ : Store) (d : Dict Int) (t : Stmt E) : Prop where
  norep : ∀ s, t ≠ .leaf (.dlrep s)
  all : EveryLeaf (LibLeaf q (updateSecretValues σ d) d Priv false) t
  proved : ProvedLeaf (LibLeaf q (updateSecretValues σ d) d Priv true) t
  separate : Separate (libProfile Priv) t
  tidy : Tidy (libProfile Priv) σ.name t
  uniq : d.Uniq (updateSecretValues σ d)
  args : ∀ e ∈ d, ¬ Priv e.1
  hides : EveryLeaf (LibHides q (updateSecretValues σ d) Priv false) t
  hidesProved : ProvedLeaf (LibHides q (updateSecretValues σ d) Priv true) t
  named : Named (libProfile Priv) σ.name t

/-- Helper: everything that is needed. -/
theorem lib_pair {q : Nat} {Priv : Sec → Prop} {t u : Stmt E} {d d' : Dict Int} {σ σs : Store} (hq : q.Prime)
    (h : LibProver q Priv σ d t) (hu : Outsider (updateSecretValues σs d') d' t u)
    (hd' : d'.Uniq (updateSecretValues σs d')) (hns : Named (libProfile Priv) σs.name t) :
    Clause.Pair (libProfile Priv) q q (libZ True) σ d t σs d' u where
  pos := hq.ne_zero
  dvd := dvd_rfl
  norep := h.norep
  ready := ready_lib (fun _ _ => trivial) h.all h.proved h.separate (by rw [updateSecretValues_name]; exact h.tidy) h.uniq
    h.args (told_of_uniq h.uniq)
  blind := every_mono h.hides fun _ _ h => lib_blind hq.ne_zero h
  hides := proved_mono h.hidesProved fun _ _ h => lib_hides hq h
  out := hu
  uniq' := hd'
  named := h.named
  named' := hns

/-- **C96** For the statements of the library: for every challenge the runs of the prover are distributed as those of an
outsider who is told which clauses are marked, has other numbers instead of the values and no signature, and knows the
challenge in advance. -/
theorem C96_library (q : Nat) (Priv : Sec → Prop) (env : Env E) (c : Int) (t u : Stmt E) (d d' : Dict Int)
    (σ σs : Store) (hq : q.Prime) (h : LibProver q Priv σ d t)
    (hu : Outsider (updateSecretValues σs d') d' t u) (hd' : d'.Uniq (updateSecretValues σs d'))
    (hns : Named (libProfile Priv) σs.name t) :
    SameResults q (honestRunStmt env t d c) σ (pretendedRunStmt env u d' c) σs ∧
      Succeeds q (honestRunStmt env t d c) σ ∧ Succeeds q (pretendedRunStmt env u d' c) σs :=
  Clause.runs_pretended (lib_pair hq h hu hd' hns) env c

/-- **C96** So are the non-interactive proofs, if the outsider may choose one answer of the hash function. -/
theorem C96_library_proofs (q : Nat) (Priv : Sec → Prop) (env : Env E) (henv : Readable env) (message : String)
    (t u : Stmt E) (d d' : Dict Int) (σ σs : Store) (hq : q.Prime) (h : LibProver q Priv σ d t)
    (hu : Outsider (updateSecretValues σs d') d' t u) (hd' : d'.Uniq (updateSecretValues σs d'))
    (hns : Named (libProfile Priv) σs.name t) :
    ∃ N, ∀ n, N ≤ n → ∀ a, ∃ e : Equiv.Perm (Fin n → Fin q), ∀ (y : Fin n → Fin q) (rest : Nat → Nat),
      ∃ π x t' w w',
        prove (LeafProver E) (rehash env (answering env.sha x a)) t d message ⟨σ, tape y rest⟩ = .ok ((π, t'), w) ∧
        pretendedProofStmt env u d' a message ⟨σs, tape (e y) rest⟩ = .ok ((π, x), w') ∧ w.rng = w'.rng :=
  Clause.same_proofs (lib_pair hq h hu hd' hns) env henv message

/-! ### A case that meets the hypotheses -/

/-- `exThree` as made by somebody without the value of `x`. -/
def exBlindThree : PowerTwo (ZMod 7) := { exThree with isProver := false }

/-- Either `6 = y·3` and a range proof, marked as simulated; or `2 = y·1 + z·3` and the inequality `exLibNe`. -/
def exEither : Stmt (ZMod 7) :=
  .or false [.and true [.leaf (.dlrep ⟨Ex.P 6, [Ex.P 3], [0], [], false⟩), exBlindThree.stmt],
    .and false [.leaf (.dlrep ⟨Ex.P 2, [Ex.P 1, Ex.P 3], [7, 8], [], false⟩), exLibNe.stmt]]

private theorem exEither_ne {y : Sec}
    (h : AtLeaf (leafWrites (libProfile exLibPriv)) exLibNe.stmt y) : y = 3 ∨ y = 4 := by
  cases h with
  | leaf _ _ h =>
    obtain ⟨h1, h2⟩ := h
    have := (occurs_notEqual (s := exLibNe) rfl (by decide) (by decide) exLibPriv y).mp h2
    rcases this with h | h | ⟨_, h⟩
    · exact .inl h
    · exact .inr h
    · subst h; revert h1; unfold exLibPriv; decide

private theorem exEither_range {y : Sec}
    (h : AtLeaf (leafWrites (libProfile exLibPriv)) exBlindThree.stmt y) : y = 5 ∨ y = 6 := by
  cases h with
  | leaf _ _ h =>
    obtain ⟨h1, h2⟩ := h
    have := (occurs_range (s := exBlindThree) (σ := exLibStore) (by decide) (by simp [exBlindThree]) exLibPriv y).mp h2
    simpa [exThree, exBlindThree] using this

private theorem exEither_rep {y : Sec} {s : DLRep (ZMod 7)} :
    ¬ AtLeaf (leafWrites (libProfile exLibPriv)) (.leaf (.dlrep s) : Stmt (ZMod 7)) y := by
  rintro (⟨_, _, h⟩); exact h

/-- The secrets written in the first and in the second clause. -/
private theorem exEither_first {y : Sec} (h : AtLeaf (leafWrites (libProfile exLibPriv))
    (.and true [.leaf (.dlrep ⟨Ex.P 6, [Ex.P 3], [0], [], false⟩), exBlindThree.stmt] : Stmt (ZMod 7)) y) :
    y = 5 ∨ y = 6 := by
  obtain _ | ⟨_, _, t, _, ht, h⟩ := h
  simp only [List.mem_cons, List.not_mem_nil, or_false] at ht
  rcases ht with rfl | rfl
  · exact (exEither_rep h).elim
  · exact exEither_range h

private theorem exEither_second {y : Sec} (h : AtLeaf (leafWrites (libProfile exLibPriv))
    (.and false [.leaf (.dlrep ⟨Ex.P 2, [Ex.P 1, Ex.P 3], [7, 8], [], false⟩), exLibNe.stmt] : Stmt (ZMod 7)) y) :
    y = 3 ∨ y = 4 := by
  obtain _ | ⟨_, _, t, _, ht, h⟩ := h
  simp only [List.mem_cons, List.not_mem_nil, or_false] at ht
  rcases ht with rfl | rfl
  · exact (exEither_rep h).elim
  · exact exEither_ne h

private theorem exEither_leafs (b : Bool) {P Q : Stmt (ZMod 7) → Prop} {l0 l1 : Leaf (ZMod 7)}
    (h0 : P (.leaf l0)) (h1 : P (.leaf l1)) (hQ : (∀ t ∈ [.leaf l0, .leaf l1], P t) → Q (.and b [.leaf l0, .leaf l1])) :
    Q (.and b [.leaf l0, .leaf l1]) := by
  refine hQ fun t ht => ?_
  simp only [List.mem_cons, List.not_mem_nil, or_false] at ht
  rcases ht with rfl | rfl
  · exact h0
  · exact h1

private theorem exEither_noOr {b : Bool} {l0 l1 : Leaf (ZMod 7)} {u : Stmt (ZMod 7)} {rest : List (Stmt (ZMod 7))} :
    ¬ OrIn (.and b [.leaf l0, .leaf l1]) u rest := by
  intro h
  generalize hs : (Tree.and b [Tree.leaf l0, Tree.leaf l1]) = r at h
  cases h with
  | here => cases hs
  | down b ls t rs u rest h =>
    injection hs with _ hs
    have hm : t ∈ [Tree.leaf l0, Tree.leaf l1] := by rw [hs]; simp
    simp only [List.mem_cons, List.not_mem_nil, or_false] at hm
    rcases hm with rfl | rfl <;> cases h

/-- Two provers with different values of `y` and `z`. -/
def exEitherValues (b : Bool) : Dict Int := if b then [(1, 3), (7, 2), (8, 0)] else [(1, 3), (7, 6), (8, 1)]

/-- The first representation is a library statement. -/
private theorem exEither_leaf0 (b : Bool) :
    LibLeaf 7 (updateSecretValues exLibStore (exEitherValues b)) (exEitherValues b) exLibPriv false
    (.dlrep (⟨Ex.P 6, [Ex.P 3], [0], [], false⟩ : DLRep (ZMod 7))) := by
  refine .rep _ ⟨by decide, by decide, by decide, by decide⟩ ?_ ?_ ?_ (by simp)
  · intro x b h
    simp only [terms, List.zip_cons_cons, List.zip_nil_right, List.mem_singleton, Prod.mk.injEq] at h
    rw [h.2]; decide
  · intro x b h
    simp only [terms, List.zip_cons_cons, List.zip_nil_right, List.mem_singleton, Prod.mk.injEq] at h
    rw [h.2]; rfl
  · intro x hx
    have hx : x = 0 := by simpa using hx
    subst hx; unfold exLibPriv; decide

/-- The second representation is true. -/
private theorem exEither_leaf1 (b p : Bool) :
    LibLeaf 7 (updateSecretValues exLibStore (exEitherValues b)) (exEitherValues b) exLibPriv p
    (.dlrep (⟨Ex.P 2, [Ex.P 1, Ex.P 3], [7, 8], [], false⟩ : DLRep (ZMod 7))) := by
  have ht : ∀ x b, (x, b) ∈ terms (.leaf ⟨Ex.P 2, [Ex.P 1, Ex.P 3], [7, 8], [], false⟩ : Core (ZMod 7)) →
      b = Ex.P 1 ∨ b = Ex.P 3 := by
    intro x b h
    simp only [terms, List.zip_cons_cons, List.zip_nil_right, List.mem_cons, List.not_mem_nil, or_false,
      Prod.mk.injEq] at h
    rcases h with ⟨_, rfl⟩ | ⟨_, rfl⟩ <;> simp
  refine .rep _ ⟨by decide, by decide, by decide, by decide⟩ (fun x b h => ?_) (fun x b h => ?_) (fun x hx => ?_)
    fun _ => .rep _ (fun x hx => ?_) (.rep _ _ (by simp [Ex.P]) (by cases b <;> decide))
  · rcases ht x b h with rfl | rfl <;> decide
  · rcases ht x b h with rfl | rfl <;> rfl
  · have hx : x = 7 ∨ x = 8 := by simpa using hx
    rcases hx with rfl | rfl <;> (unfold exLibPriv; decide)
  · simp only [List.mem_cons, List.not_mem_nil, or_false] at hx
    rcases hx with rfl | rfl <;> cases b <;> rfl

private theorem exEither_leaf2 (b p : Bool) :
    ∃ l, exLibNe.stmt = .leaf l ∧ LibLeaf 7 (updateSecretValues exLibStore (exEitherValues b)) (exEitherValues b) exLibPriv p l ∧
      LibHides 7 (updateSecretValues exLibStore (exEitherValues b)) exLibPriv p l := by
  refine ⟨_, rfl, .notEqual exLibNe _ rfl rfl (by decide) (by decide) (by decide) ?_ (by decide)
    fun _ => ⟨3, by cases b <;> rfl, by decide⟩, .notEqual exLibNe _ rfl rfl (by decide) ?_
    fun _ => ⟨3, 4, by cases b <;> rfl, by decide, by decide, by decide⟩⟩ <;>
    (unfold exLibPriv; decide)

private theorem exEither_leaf3 (b : Bool) :
    ∃ l, exBlindThree.stmt = .leaf l ∧
      LibLeaf 7 (updateSecretValues exLibStore (exEitherValues b)) (exEitherValues b) exLibPriv false l ∧
      LibHides 7 (updateSecretValues exLibStore (exEitherValues b)) exLibPriv false l := by
  refine ⟨_, rfl, .range exBlindThree _ rfl rfl (by decide) (by decide) (by decide) (by decide) ?_ (by cases b <;> decide)
      (by simp [exBlindThree]) (by simp), .range exBlindThree _ rfl rfl (by decide) (by decide) rfl rfl⟩
  unfold exLibPriv; decide

/-- The hypotheses about the prover are met, with either values. -/
theorem exEither_prover (b : Bool) : LibProver 7 exLibPriv exLibStore (exEitherValues b) exEither := by
  have hinj : ∀ x y : Sec, exNeStore.name x = exNeStore.name y → x = y := by
    intro x y h
    have := congrArg String.length h
    simpa [exNeStore] using this
  obtain ⟨l2, e2, _⟩ := exEither_leaf2 b true
  obtain ⟨l3, e3, k3, j3⟩ := exEither_leaf3 b
  have k2 : ∀ p, LibLeaf 7 (updateSecretValues exLibStore (exEitherValues b)) (exEitherValues b) exLibPriv p l2 ∧
      LibHides 7 (updateSecretValues exLibStore (exEitherValues b)) exLibPriv p l2 := by
    intro p
    obtain ⟨l, e, h⟩ := exEither_leaf2 b p
    rw [e2] at e
    cases e
    exact h
  have hw1 := @exEither_first
  have hw2 := @exEither_second
  have hw3 := @exEither_ne
  have hw4 := @exEither_range
  rw [e3] at hw1 hw4
  rw [e2] at hw2 hw3
  unfold exEither
  rw [e2, e3]
  refine ⟨fun s => by simp, .any _ _ (by simp) ?_, .any _ ⟨_, List.mem_cons_of_mem _ (List.mem_cons_self ..), rfl⟩ ?_,
    .any _ _ ?_ ?_, .any _ _ ?_, ?_, (by unfold exLibPriv; cases b <;> decide),
    .any _ _ (by simp) ?_, .any _ ⟨_, List.mem_cons_of_mem _ (List.mem_cons_self ..), rfl⟩ ?_, fun x y _ _ => hinj x y⟩
  · intro t ht
    simp only [List.mem_cons, List.not_mem_nil, or_false] at ht
    rcases ht with rfl | rfl
    · exact exEither_leafs _ (.leaf _ (exEither_leaf0 _)) (.leaf _ k3) fun h => .all _ _ (by simp) h
    · exact exEither_leafs _ (.leaf _ (exEither_leaf1 _ _)) (.leaf _ (k2 _).1) fun h => .all _ _ (by simp) h
  · intro t ht hs
    simp only [List.mem_cons, List.not_mem_nil, or_false] at ht
    rcases ht with rfl | rfl
    · cases hs
    · exact exEither_leafs _ (.leaf _ (exEither_leaf1 _ _)) (.leaf _ (k2 _).1) fun h => .all _ h
  · intro t ht
    simp only [List.mem_cons, List.not_mem_nil, or_false] at ht
    have two : ∀ (b : Bool) (s : DLRep (ZMod 7)) (l : Leaf (ZMod 7)),
        Separate (libProfile exLibPriv) (.and b [.leaf (.dlrep s), .leaf l]) := by
      intro b s l
      refine exEither_leafs (P := Separate (libProfile exLibPriv)) _ (.leaf _) (.leaf _) fun h => .all _ _ h ?_
      intro i j t u x hij ht hu h1 h2
      match i, j with
      | 0, _ => simp only [List.getElem?_cons_zero, Option.some.injEq] at ht; subst ht; exact exEither_rep h1
      | _, 0 => simp only [List.getElem?_cons_zero, Option.some.injEq] at hu; subst hu; exact exEither_rep h2
      | 1, 1 => exact hij rfl
      | i + 2, _ => simp at ht
      | _, j + 2 => simp at hu
    rcases ht with rfl | rfl <;> exact two _ _ _
  · intro i j t u x hij ht hu h1 h2
    match i, j with
    | 0, 0 => exact hij rfl
    | 1, 1 => exact hij rfl
    | 0, 1 =>
      simp at ht hu; subst ht hu
      rcases hw1 h1 with rfl | rfl <;> rcases hw2 h2 with h | h <;> revert h <;> decide
    | 1, 0 =>
      simp at ht hu; subst ht hu
      rcases hw1 h2 with rfl | rfl <;> rcases hw2 h1 with h | h <;> revert h <;> decide
    | i + 2, _ => simp at ht
    | _, j + 2 => simp at hu
  · intro t ht
    simp only [List.mem_cons, List.not_mem_nil, or_false] at ht
    rcases ht with rfl | rfl <;>
      exact exEither_leafs (P := Tidy (libProfile exLibPriv) exLibStore.name) _ (.leaf _) (.leaf _)
        fun h => .all _ _ h fun u rest hu => (exEither_noOr hu).elim
  · cases b <;> (unfold exEitherValues; simp only [Bool.false_eq_true, if_true, if_false, Dict.Uniq]; decide)
  · intro t ht
    simp only [List.mem_cons, List.not_mem_nil, or_false] at ht
    rcases ht with rfl | rfl
    · exact exEither_leafs _ (.leaf _ (.rep _)) (.leaf _ j3) fun h => .all _ _ (by simp) h
    · exact exEither_leafs _ (.leaf _ (.rep _)) (.leaf _ (k2 _).2) fun h => .all _ _ (by simp) h
  · intro t ht hs
    simp only [List.mem_cons, List.not_mem_nil, or_false] at ht
    rcases ht with rfl | rfl
    · cases hs
    · exact exEither_leafs _ (.leaf _ (.rep _)) (.leaf _ (k2 _).2) fun h => .all _ h

/-- The outsider has no value for `x`, and zeros for `y` and `z`. -/
theorem exEither_outsider : Outsider (updateSecretValues ⟨exNeStore.name, fun _ => none⟩ [(7, 0), (8, 0)])
    [(7, 0), (8, 0)] exEither exEither := by
  refine .any _ _ rfl (fun i t t' h h' => ?_) (fun i t t' h h' hs => ?_)
  · obtain rfl := Option.some.inj (h.symm.trans h')
    exact ⟨rfl, rfl⟩
  · obtain rfl := Option.some.inj (h.symm.trans h')
    match i, h with
    | 0, h => simp only [List.getElem?_cons_zero, Option.some.injEq] at h; subst h; cases hs
    | 1, h =>
      simp only [List.getElem?_cons_succ, List.getElem?_cons_zero, Option.some.injEq] at h
      subst h
      refine .all _ _ rfl fun i t t' h h' => ?_
      obtain rfl := Option.some.inj (h.symm.trans h')
      match i, h with
      | 0, h =>
        simp only [List.getElem?_cons_zero, Option.some.injEq] at h
        subst h
        exact .rep _ _ rfl (by decide)
      | 1, h =>
        simp only [List.getElem?_cons_succ, List.getElem?_cons_zero, Option.some.injEq] at h
        subst h
        exact .ext _ _ rfl
      | i + 2, h => simp at h
    | i + 2, h => simp at h

private theorem exEither_uniq : Dict.Uniq (updateSecretValues ⟨exNeStore.name, fun _ => none⟩ [(7, 0), (8, 0)])
    ([(7, 0), (8, 0)] : Dict Int) := by
  simp only [Dict.Uniq]; decide

private theorem exEither_named : Named (libProfile exLibPriv) exNeStore.name exEither := (exEither_prover true).named

/-- The hypotheses of the general theorems are met, too. -/
theorem exEither_pair (b : Bool) : Clause.Pair (libProfile exLibPriv) 7 7 (libZ True) exLibStore (exEitherValues b)
    exEither ⟨exNeStore.name, fun _ => none⟩ [(7, 0), (8, 0)] exEither :=
  lib_pair (by decide : Nat.Prime 7) (exEither_prover b) exEither_outsider exEither_uniq exEither_named

/-- The runs of the prover are made equally often by the outsider. -/
example (env : Env (ZMod 7)) (c : Int) (b : Bool) :
    SameResults 7 (honestRunStmt env exEither (exEitherValues b) c) exLibStore
      (pretendedRunStmt env exEither [(7, 0), (8, 0)] c) ⟨exNeStore.name, fun _ => none⟩ :=
  (C96_library 7 exLibPriv env c _ _ _ _ _ _ (by decide : Nat.Prime 7) (exEither_prover b) exEither_outsider
    exEither_uniq exEither_named).1

example (b : Bool) := C96_library_proofs 7 exLibPriv (Ex.lengthEnv [0]) (Ex.readable_lengthEnv _) "m" _ _ _ _ exLibStore
  ⟨exNeStore.name, fun _ => none⟩ (by decide : Nat.Prime 7) (exEither_prover b) exEither_outsider exEither_uniq exEither_named

example (env : Env (ZMod 7)) (c : Int) (b : Bool) :=
  have ⟨h1, h2, h3, h4, h5, h6, h7, h8, h9, h10⟩ := exEither_pair b
  (C96_without_values _ 7 7 _ env c _ _ _ _ _ _ h1 h2 h3 h4 h5 h6 h7 h8 h9 h10).1

example (b : Bool) := have ⟨h1, h2, h3, h4, h5, h6, h7, h8, h9, h10⟩ := exEither_pair b
  C96_same_distribution _ 7 7 _ (Ex.lengthEnv [0]) 4 _ _ _ _ _ _ h1 h2 h3 h4 h5 h6 h7 h8 h9 h10

example (b : Bool) := have ⟨h1, h2, h3, h4, h5, h6, h7, h8, h9, h10⟩ := exEither_pair b
  C96_same_proofs _ 7 7 _ (Ex.lengthEnv [0]) (Ex.readable_lengthEnv _) "m" _ _ _ _ _ _ h1 h2 h3 h4 h5 h6 h7 h8 h9 h10

example (b : Bool) := have ⟨h1, h2, h3, h4, h5, h6, h7, h8, h9, h10⟩ := exEither_pair b
  C96_proofs_distribution _ 7 7 _ (Ex.lengthEnv [0]) "m" _ _ _ _ _ _ h1 h2 h3 h4 h5 h6 h7 h8 h9 h10

end Zksk.Props
