import Verif.Lemmas.PretendStmt
import Verif.Lemmas.PretendProof

/-! Whole runs of compositions with extended parts, without the values of the secrets. -/

set_option linter.unusedSectionVars false

namespace Zksk.Clause

open Spec Peer

variable {E : Type} [AddCommGroup E] [DecidableEq E]

/-- The assumptions about a prover and an outsider. -/
structure Pair (F : Profile E) (q M : Nat) (Z : ExtSpec E → Val E → Prop) (σ : Store) (d : Dict Int) (t : Stmt E)
    (σs : Store) (d' : Dict Int) (u : Stmt E) : Prop where
  pos : M ≠ 0
  dvd : q ∣ M
  norep : ∀ s, t ≠ .leaf (.dlrep s)
  ready : Spec.Ready F q (updateSecretValues σ d) d Z t
  blind : EveryLeaf (LeafBlind M (updateSecretValues σ d) (updateSecretValues σs d')) t
  hides : ProvedLeaf (LeafHides F M (updateSecretValues σ d) (updateSecretValues σs d') d) t
  out : Outsider (updateSecretValues σs d') d' t u
  uniq' : d'.Uniq (updateSecretValues σs d')
  named : Named F σ.name t
  named' : Named F σs.name t

/-- What a prover has before the challenge. -/
structure Shown (E : Type) where
  precommitment : Val E
  id : PId E
  commitment : Val E
  prover : StmtProver E

/-- Everything before the challenge. -/
def preRun (t : Stmt E) (d : Dict Int) : PM (Shown E) := do
  let (p?, _) ← (PTree.getProver t d : PM (Option (StmtProver E) × Stmt E))
  match p? with
  | none => raise .attributeError
  | some p => do
    let (v, p1) ← PTree.precommit p
    let σ ← getStore
    let id ← liftE (Tree.proofId σ (PTree.stmtOf p1))
    let (com, p2) ← PTree.internalCommit p1 none
    pure ⟨v, id, com, p2⟩

/-- What a run of the prover and what the outsider makes have in common. -/
def Alike (c : Int) (a : Shown E) (τ : Store) (b : Val E × PId E × Val E × Val E) (_ : Store) : Prop :=
  a.precommitment = b.1 ∧ a.id = b.2.1 ∧ a.commitment = b.2.2.1 ∧
    Tree.proofId τ (PTree.stmtOf a.prover) = .ok a.id ∧
    ((∃ P, a.commitment = .pt P) ∨ ∃ l, a.commitment = .list l) ∧ (∀ x, a.precommitment ≠ .str x) ∧
    ∀ s, PTree.computeResponse a.prover c ⟨τ, s⟩ = .ok (b.2.2.2, ⟨τ, s⟩)

theorem get_settled {t : Stmt E} (ht : ∀ s, t ≠ .leaf (.dlrep s)) (σ : Store) (d : Dict Int) :
    starting σ (PTree.getProver t d : PM (Option (StmtProver E) × Stmt E)) =
    starting (updateSecretValues σ d) (PTree.getProver t d : PM (Option (StmtProver E) × Stmt E)) := by
  funext r
  simp only [starting]
  cases t with
  | and s subs => simp only [PTree.getProver, pm_getStore_bind, pm_setStore_bind, updateSecretValues_idem]
  | or s subs => simp only [PTree.getProver, pm_getStore_bind, pm_setStore_bind, updateSecretValues_idem]
  | leaf l =>
    cases l with
    | dlrep s => exact (ht s rfl).elim
    | ext s =>
      simp only [PTree.getProver, ProverOps.getProver]
      unfold ExtProver.getProver
      simp only [pm_getStore_bind, pm_setStore_bind, bind_assoc, updateSecretValues_idem]

variable {F : Profile E} {q M : Nat} {Z : ExtSpec E → Val E → Prop} {σ σs : Store} {d d' : Dict Int} {t u : Stmt E}

theorem names_key {σ : Store} {t : Stmt E} (h : Named F σ.name t) {x y : Sec} (hx : AtLeaf (leafOccurs F) t x)
    (hy : AtLeaf (leafOccurs F) t y) : σ.key x = σ.key y ↔ x = y :=
  ⟨fun e => h x y hx hy (congrArg Prod.fst e), fun e => by rw [e]⟩

theorem view_couple (h : Pair F q M Z σ d t σs d' u) (c : Int) :
    Couple M (Alike c) (starting σ (preRun t d)) (starting σs (pretendedViewStmt u d' c)) := by
  have hu : ∀ s, u ≠ .leaf (.dlrep s) := by
    rintro s rfl
    generalize hT : (Tree.leaf (.dlrep s) : Stmt E) = T at h
    cases h.out with
    | rep s s' _ _ => exact h.norep s rfl
    | ext _ _ _ => cases hT
    | all _ _ _ _ => cases hT
    | any _ _ _ _ _ => cases hT
  have n1 : Named F (updateSecretValues σ d).name t := by rw [updateSecretValues_name]; exact h.named
  have n2 : Named F (updateSecretValues σs d').name t := by rw [updateSecretValues_name]; exact h.named'
  have hm : Match F q M Z (updateSecretValues σ d) (updateSecretValues σs d') d d' t u :=
    ⟨h.out, h.ready.sound, h.ready.holds, h.blind, h.hides, h.ready.placed, fun x y hx hy => by
      rw [names_key n1 hx hy, names_key n2 hx hy]⟩
  have hget := get_couple h.pos h.ready.uniq h.uniq' (updateSecretValues_idem _ _) (updateSecretValues_idem _ _) h.out hm
  rw [← get_settled h.norep, ← get_settled hu] at hget
  have hA := h.ready.args
  have hget := hget.left (P := fun a τ => ∀ p, a.1 = some p →
      Primed (LeafFit F q d Z (AtLeaf (leafWrites F) t) τ) p ∧
      Honest (fun p _ => LeafFit F q d Z (AtLeaf (leafWrites F) t) τ p) τ p valueOf ∧
      Tree.blank (PTree.stmtOf p) = Tree.blank t ∧
      Aside (LeafGood F q Z (AtLeaf (leafWrites F) t) τ) (LeafBuilt F q Z) p ∧ Firm (leafOutside F) p) (by
    intro r a w hr p hp
    obtain ⟨p0, t0, w1, g0, _, g⟩ := getProver_stmt F q d Z (AtLeaf (leafWrites F) t) hA h.norep (w := ⟨σ, r⟩)
      h.ready.uniq (good_of_ready h.ready) (sat_of_ready h.ready)
    have : PTree.getProver t d ⟨σ, r⟩ = .ok (a, w) := hr
    rw [g0] at this
    simp only [Except.ok.injEq, Prod.mk.injEq] at this
    obtain ⟨rfl, rfl⟩ := this
    simp only [Option.some.injEq] at hp
    subst hp
    exact g)
  unfold preRun pretendedViewStmt
  refine .bind hget ?_
  rintro ⟨p?, t1⟩ τ ⟨p?', u1⟩ τ' ⟨⟨⟨e1, e2⟩, p, p', e3, e4, hmate⟩, hp⟩
  simp only at e3 e4 hp
  subst e3; subst e4
  obtain ⟨a1, a2, a3, a4, a5⟩ := hp p rfl
  rw [e1] at a1 a2 a4 ⊢
  rw [e2]
  clear hp hget e1 e2 τ τ'
  have hap : Apart (leafFoot F) (leafScope F (AtLeaf (leafWrites F) t)) p :=
    apart_of F q Z _ p a1 a4 (separate_blank F h.ready.separate _ a3)
      fun x hx => atLeaf_blank (leafWrites_blank F) hx t a3.symm
  have hpre := (pre_couple hA p a1 hap p' hmate _ (Same.refl _ _)).left (P := fun a τ =>
      Honest (fun p _ => LeafHonest F q Z (AtLeaf (leafWrites F) t) τ p) τ a.2 valueOf ∧
      Tree.blank (PTree.stmtOf a.2) = Tree.blank t ∧ Good (LeafBuilt F q Z) (PTree.stmtOf a.2) ∧
      τ.name = (updateSecretValues σ d).name ∧ ∀ s, a.1 ≠ .str s) (by
    intro r a w hr
    obtain ⟨v, p1⟩ := a
    have hr : PTree.precommit p ⟨updateSecretValues σ d, r⟩ = .ok ((v, p1), w) := hr
    obtain ⟨g1, g2, g3, g4, g5⟩ := precommit_lawL (leafOutside_blank F) valueOf (leafFit_stab F q d Z _ hA)
      (precommitLeaf_stmt F q d Z _ hA) p p1 ⟨updateSecretValues σ d, r⟩ _ _ a1 a2 hap a5 hr
    obtain ⟨v', p2, w', r1, hname, hstr⟩ := precommit_runs F q d Z _ hA h.ready.hashable p valueOf
      ⟨updateSecretValues σ d, r⟩ a1 a2 hap a5
    rw [hr] at r1
    simp only [Except.ok.injEq, Prod.mk.injEq] at r1
    obtain ⟨⟨rfl, rfl⟩, rfl⟩ := r1
    have hh := g2 w.store (Same.refl _ _)
    exact ⟨hh, g5.trans a3, built_of F q Z _ p1 valueOf hh (aside_precommit p p1 _ _ _ a4 hr), hname, hstr⟩)
  refine .bind hpre ?_
  rintro ⟨v, p1⟩ τ ⟨v', p1'⟩ τ' ⟨⟨e, _, e0, hmate1⟩, hh, hb, hbuilt, hname, hstr⟩
  simp only at e0 hmate1 hh hb hbuilt hstr
  subst e0
  rw [e]
  clear e τ'
  obtain ⟨k, hk, hsol, hone, hocc⟩ := built_core F q Z _ hbuilt
  have hocc : ∀ x ∈ secrets k, AtLeaf (leafOccurs F) t x := fun x hx =>
    atLeaf_blank (leafOccurs_blank F) (hocc x hx) t hb.symm
  have nτ : Named F τ.name t := by rw [hname]; exact n1
  have hV : SameKeys τ (updateSecretValues σs d') (secrets k) := fun x hx y hy => by
    rw [names_key n2 (hocc x hx) (hocc y hy), names_key nτ (hocc x hx) (hocc y hy)]
  obtain ⟨S, hS⟩ : ∃ S, Tree.skel (PTree.stmtOf p1) = some S := by
    rw [← Option.isSome_iff_exists, ← Tree.core_skel, hk]; rfl
  obtain ⟨c1, c2⟩ := mated_core hmate1
  obtain ⟨id, _, hid, _⟩ := Tree.proofId_isOk (σ := τ) hS
  have hv1 : Tree.secretVars (PTree.stmtOf p1) = .ok (secrets k) := by
    rw [Tree.core_vars _ _ hk, secretVars_core]
  have hv2 : Tree.secretVars (PTree.stmtOf p1') = .ok (secrets k) := by
    rw [Tree.core_vars _ _ (c1.trans hk), secretVars_core]
  have hid' : Tree.proofId (updateSecretValues σs d') (PTree.stmtOf p1') = .ok id := by
    rw [← hid]
    exact ((Tree.proofId_eq_iff hS (c2.trans hS) hv1 hv2).mpr ⟨rfl, (sees_apart
      (fun x hx y hy he => nτ x y (hocc x hx) (hocc y hy) he)
      (fun x hx y hy he => n2 x y (hocc x hx) (hocc y hy) he)).1⟩).symm
  refine .get (.lift hid hid' ?_)
  have htidy : Tidy F τ.name (PTree.stmtOf p1) := by
    rw [hname]
    exact tidy_blank F h.ready.tidy _ hb
  have hcom := ((commit_twin h.pos h.dvd hV hmate1 valueOf hh hbuilt htidy k hk (fun x hx => hx) c none none trivial).couple
    h.pos).left (P := fun a _ => (∃ b, a.1 = .pt b) ∨ ∃ vs, a.1 = .list vs) (by
      intro r a w hr
      obtain ⟨com, p2, w', g1, _, g2⟩ := commit_built F q Z _ p1 valueOf hh hbuilt htidy none ⟨τ, r⟩ rfl (by simp)
      have : PTree.internalCommit p1 none ⟨τ, r⟩ = .ok (a, w) := hr
      rw [g1] at this
      simp only [Except.ok.injEq, Prod.mk.injEq] at this
      obtain ⟨rfl, rfl⟩ := this
      exact g2)
  refine .bind hcom ?_
  rintro ⟨com, p2⟩ τ2 ⟨com', r⟩ τ' ⟨⟨⟨e1, e2⟩, h1, h2, h4⟩, h5⟩
  simp only at h1 h2 h4 h5
  subst h1
  rw [e1]
  exact .pure ⟨rfl, rfl, rfl, by simp only; rw [h2]; exact hid, h5, hstr, h4⟩

theorem view_perm (h : Pair F q M Z σ d t σs d' u) : ∃ N, ∀ n, N ≤ n → ∀ c : Int,
    ∃ e : Equiv.Perm (Fin n → Fin M), ∀ y, ∃ a τ b τ', Alike c a τ b τ' ∧
      ∀ rest, ∃ r', preRun t d ⟨σ, tape y rest⟩ = .ok (a, ⟨τ, r'⟩) ∧
        pretendedViewStmt u d' c ⟨σs, tape (e y) rest⟩ = .ok (b, ⟨τ', r'⟩) := by
  obtain ⟨N, hN⟩ := (view_couple h 0).reads
  exact ⟨N, fun n hn c => (view_couple h c).perm_of h.pos (hN.mono hn) fun _ => rfl⟩

/-! ### In terms of the code -/

theorem honestView_pre {c : Int} {w w' : World} {a : Shown E} {r : Val E} (h : preRun t d w = .ok (a, w'))
    (hid : Tree.proofId w'.store (PTree.stmtOf a.prover) = .ok a.id)
    (hr : PTree.computeResponse a.prover c w' = .ok (r, w')) :
    honestView t d c w = .ok ((a.precommitment, a.id, a.commitment, r), w') ∧
    ∀ env : Env E, honestRunStmt env t d c w = .ok ((a.precommitment, ⟨env.digest a.id, a.commitment, c, r⟩), w') := by
  unfold preRun at h
  obtain ⟨⟨p?, t0⟩, w1, h1, h⟩ := pm_bind.mp h
  cases p? with
  | none => exact (raise_ne.mp h).elim
  | some p =>
    simp only at h
    obtain ⟨⟨v, p1⟩, w3, h3, h⟩ := pm_bind.mp h
    simp only at h
    rw [pm_getStore_bind, pm_liftE_bind_iff] at h
    obtain ⟨id, h5, h⟩ := h
    obtain ⟨⟨com, p2⟩, w4, h4, h⟩ := pm_bind.mp h
    rw [pm_pure_iff, Prod.mk.injEq] at h
    obtain ⟨rfl, rfl⟩ := h
    simp only at hid hr
    constructor
    · unfold honestView
      rw [pm_bind_eq h1]
      simp only
      rw [pm_bind_eq h3]
      simp only
      rw [pm_bind_eq h4]
      simp only
      rw [pm_getStore_bind, hid, pm_liftE_bind, pm_bind_eq hr]
      rfl
    · intro env
      unfold honestRunStmt
      rw [pm_bind_eq h1]
      simp only
      rw [pm_bind_eq h3]
      simp only
      have hcm : PTree.commit env p1 w3 = .ok (((env.digest id, com), p2), w4) := by
        unfold PTree.commit
        rw [pm_getStore_bind, h5, pm_liftE_bind, pm_bind_eq h4]
        rfl
      rw [pm_bind_eq hcm]
      simp only
      rw [pm_bind_eq hr]
      rfl

theorem pretendedRun_view {env : Env E} {c : Int} {w : World} {b : Val E × PId E × Val E × Val E} {w' : World}
    (h : pretendedViewStmt t d c w = .ok (b, w')) :
    pretendedRunStmt env t d c w = .ok ((b.1, ⟨env.digest b.2.1, b.2.2.1, c, b.2.2.2⟩), w') := by
  unfold pretendedRunStmt
  rw [pm_bind_eq h]
  rfl

theorem runs_pretended (h : Pair F q M Z σ d t σs d' u) (env : Env E) (c : Int) :
    SameResults M (honestRunStmt env t d c) σ (pretendedRunStmt env u d' c) σs ∧
      Succeeds M (honestRunStmt env t d c) σ ∧ Succeeds M (pretendedRunStmt env u d' c) σs := by
  obtain ⟨N, key⟩ := view_perm h
  refine ⟨⟨N, fun n hn => ?_⟩, ⟨N, fun n hn y rest => ?_⟩, ⟨N, fun n hn y rest => ?_⟩⟩
  · obtain ⟨e, he⟩ := key n hn c
    refine ⟨e, fun y rest => ?_⟩
    obtain ⟨a, τ, b, τ', ⟨h1, h2, h3, h4, _, _, h5⟩, h7⟩ := he y
    obtain ⟨r', h8, h9⟩ := h7 rest
    rw [(honestView_pre h8 h4 (h5 _)).2 env, pretendedRun_view h9, h1, h2, h3]
    rfl
  · obtain ⟨e, he⟩ := key n hn c
    obtain ⟨a, τ, b, τ', ⟨h1, h2, h3, h4, _, _, h5⟩, h7⟩ := he y
    obtain ⟨r', h8, h9⟩ := h7 rest
    exact ⟨_, _, (honestView_pre h8 h4 (h5 _)).2 env⟩
  · obtain ⟨e, he⟩ := key n hn c
    obtain ⟨a, τ, b, τ', _, h7⟩ := he (e.symm y)
    obtain ⟨r', h8, h9⟩ := h7 rest
    rw [e.apply_symm_apply] at h9
    exact ⟨_, _, pretendedRun_view h9⟩

/-! ### Non-interactive proofs -/

theorem pretendedProof_iff {env : Env E} {a : List UInt8} {m : String} {w w' : World} {π : NIZK E} {x : List UInt8} :
    pretendedProofStmt env t d a m w = .ok ((π, x), w') ↔ ∃ v id com r,
      pretendedViewStmt t d (env.toInt a) w = .ok ((v, id, com, r), w') ∧
      env.challengeInput id v com m = .ok x ∧ π = ⟨env.toInt a, r, v, env.digest id⟩ := by
  unfold pretendedProofStmt
  constructor
  · intro h
    obtain ⟨⟨v, id, com, r⟩, w1, h1, h⟩ := pm_bind.mp h
    simp only at h
    obtain ⟨x', h2, h⟩ := pm_liftE_bind_iff.mp h
    rw [pm_pure_iff, Prod.mk.injEq, Prod.mk.injEq] at h
    obtain ⟨⟨rfl, rfl⟩, rfl⟩ := h
    exact ⟨v, id, com, r, h1, h2, rfl⟩
  · rintro ⟨v, id, com, r, h1, h2, rfl⟩
    rw [pm_bind_eq h1]
    simp only
    rw [h2, pm_liftE_bind]
    rfl

theorem same_proofs (h : Pair F q M Z σ d t σs d' u) (env : Env E) (henv : Readable env) (m : String) :
    ∃ N, ∀ n, N ≤ n → ∀ a, ∃ e : Equiv.Perm (Fin n → Fin M), ∀ (y : Fin n → Fin M) (rest : Nat → Nat),
      ∃ π x t' w w', prove (LeafProver E) (rehash env (answering env.sha x a)) t d m ⟨σ, tape y rest⟩ = .ok ((π, t'), w) ∧
        pretendedProofStmt env u d' a m ⟨σs, tape (e y) rest⟩ = .ok ((π, x), w') ∧ w.rng = w'.rng := by
  obtain ⟨N, key⟩ := view_perm h
  refine ⟨N, fun n hn a => ?_⟩
  obtain ⟨e, he⟩ := key n hn (env.toInt a)
  refine ⟨e, fun y rest => ?_⟩
  obtain ⟨A, τ, ⟨v, id, com, r⟩, τ', ⟨h1, h2, h3, h4, h6, h6', h5⟩, h7⟩ := he y
  obtain ⟨r', h8, h9⟩ := h7 rest
  simp only at h1 h2 h3 h5
  obtain ⟨x, hx⟩ := Ward.question env A.id m h6 h6'
  have hne := question_ne henv (com := A.commitment) (by rcases h6 with ⟨P, h⟩ | ⟨l, h⟩ <;> rw [h] <;> simp) hx
  have hfs := fiatShamir_answering (a := a) hx
  obtain ⟨t', ht'⟩ := (prove_parts (env := rehash env (answering env.sha x a)) (msg := m)
    (nizk := ⟨env.toInt a, r, A.precommitment, env.digest A.id⟩)).mpr
    ⟨A.id, A.commitment, (honestView_pre h8 h4 (h5 _)).1, hfs, (digest_answering hne).symm⟩
  refine ⟨_, x, t', _, ⟨τ', r'⟩, ht', pretendedProof_iff.mpr ⟨v, id, com, r, h9, ?_, ?_⟩, rfl⟩
  · rw [← h1, ← h2, ← h3]; exact hx
  · rw [h1, h2]

theorem same_numbers (h : Pair F q M Z σ d t σs d' u) (env : Env E) (m : String) :
    ∃ N, ∀ n, N ≤ n → ∀ (rest : Nat → Nat) (π : NIZK E), ∃ e : Equiv.Perm (Fin n → Fin M), ∀ y,
      (∃ t' w, prove (LeafProver E) env t d m ⟨σ, tape y rest⟩ = .ok ((π, t'), w)) ↔
      ∃ x w, pretendedProofStmt env u d' (env.sha x) m ⟨σs, tape (e y) rest⟩ = .ok ((π, x), w) := by
  obtain ⟨N, key⟩ := view_perm h
  refine ⟨N, fun n hn rest π => ?_⟩
  obtain ⟨e, he⟩ := key n hn π.challenge
  refine ⟨e, fun y => ?_⟩
  obtain ⟨A, τ, ⟨v, id, com, r⟩, τ', ⟨h1, h2, h3, h4, h6, h6', h5⟩, h7⟩ := he y
  obtain ⟨r', h8, h9⟩ := h7 rest
  simp only at h1 h2 h3 h5
  obtain ⟨x, hx⟩ := Ward.question env A.id m h6 h6'
  have hfs : env.fiatShamir A.id A.precommitment A.commitment m = .ok (env.toInt (env.sha x)) := by
    unfold Env.fiatShamir; rw [hx]; rfl
  have hhv := (honestView_pre h8 h4 (h5 _)).1
  constructor
  · rintro ⟨t', w, ht'⟩
    obtain ⟨id1, com1, g1, g2, g3⟩ := prove_parts.mp ⟨t', ht'⟩
    rw [hhv] at g1
    simp only [Except.ok.injEq, Prod.mk.injEq] at g1
    obtain ⟨⟨e1, e2, e3, e4⟩, rfl⟩ := g1
    rw [← e1, ← e2, ← e3, hfs] at g2
    injection g2 with g2
    refine ⟨x, _, pretendedProof_iff.mpr ⟨v, id, com, r, by rw [g2]; exact h9, ?_, ?_⟩⟩
    · rw [← h1, ← h2, ← h3]; exact hx
    · obtain ⟨c, rs, pc, sh⟩ := π
      simp only at e1 e4 g2 g3 ⊢
      rw [g2, ← e4, ← h1, e1, g3, ← e2, ← h2]
  · rintro ⟨x', w, hp⟩
    obtain ⟨v1, id1, com1, r1, g1, g2, rfl⟩ := pretendedProof_iff.mp hp
    simp only at h9
    rw [h9] at g1
    simp only [Except.ok.injEq, Prod.mk.injEq] at g1
    obtain ⟨⟨rfl, rfl, rfl, rfl⟩, rfl⟩ := g1
    have : x' = x := by
      rw [← h1, ← h2, ← h3, hx] at g2
      injection g2 with g2
      exact g2.symm
    subst this
    obtain ⟨t', ht'⟩ := (prove_parts (env := env) (msg := m) (nizk := ⟨env.toInt (env.sha x'), r, v, env.digest id⟩)
      (w := ⟨σ, tape y rest⟩) (w' := ⟨τ, r'⟩)).mpr ⟨A.id, A.commitment, by rw [hhv, h1], by
        simp only; rw [← h1]; exact hfs, by simp only; rw [h2]⟩
    exact ⟨t', _, ht'⟩

end Zksk.Clause
