import Verif.Lemmas.Commit
import Mathlib.Data.List.Forall2

/-! Precommitments: what the verifier makes of the precommitments of provers and simulators. -/

set_option linter.unusedSectionVars false

namespace Zksk

open Spec

variable {E : Type} [AddCommGroup E] [DecidableEq E]

/-- Forget the state of a leaf: flags, known values, earlier precommitments. -/
class Blank (L : Type) where
  blank : L → L

instance : Blank (DLRep E) where
  blank := DLRep.norm

instance : Blank (Leaf E) where
  blank
    | .dlrep s => .dlrep s.norm
    | .ext s => .ext ⟨s.spec, false, .none, none, none⟩

namespace Tree
variable {L : Type} [Blank L]

mutual
/-- Forget the state of a statement. -/
def blank : Tree L → Tree L
  | .leaf l => .leaf (Blank.blank l)
  | .and _ subs => .and false (blankL subs)
  | .or _ subs => .or false (blankL subs)
/-- `blank` for lists. -/
def blankL : List (Tree L) → List (Tree L)
  | [] => []
  | t :: ts => blank t :: blankL ts
end

theorem blankL_eq (ts : List (Tree L)) : blankL ts = ts.map blank := by
  induction ts with
  | nil => rfl
  | cons t ts ih => simp [blankL, ih]

theorem blank_and_inv {tv : Tree L} {s : Bool} {ts : List (Tree L)}
    (h : blank tv = blank (.and s ts)) : ∃ s' tvs, tv = .and s' tvs ∧ blankL tvs = blankL ts := by
  cases tv with
  | leaf l => simp [blank] at h
  | or _ _ => simp [blank] at h
  | and s' tvs => exact ⟨s', tvs, rfl, by simpa [blank] using h⟩

theorem blank_or_inv {tv : Tree L} {s : Bool} {ts : List (Tree L)}
    (h : blank tv = blank (.or s ts)) : ∃ s' tvs, tv = .or s' tvs ∧ blankL tvs = blankL ts := by
  cases tv with
  | leaf l => simp [blank] at h
  | and _ _ => simp [blank] at h
  | or s' tvs => exact ⟨s', tvs, rfl, by simpa [blank] using h⟩

theorem blank_leaf_inv {tv : Tree L} {l : L}
    (h : blank tv = blank (.leaf l)) : ∃ l', tv = .leaf l' ∧ Blank.blank l' = Blank.blank l := by
  cases tv with
  | and _ _ => simp [blank] at h
  | or _ _ => simp [blank] at h
  | leaf l' => exact ⟨l', rfl, by simpa [blank] using h⟩

end Tree

/-- Which statement objects a verifier may use to judge proofs made with another one. -/
class Judged (L : Type) [Blank L] where
  judge : Store → L → L → Prop
  judge_blank : ∀ (σ : Store) (lv l l' : L), Blank.blank l' = Blank.blank l → judge σ lv l → judge σ lv l'

instance : Judged (DLRep E) where
  judge _ lv l := Blank.blank lv = Blank.blank l
  judge_blank _ _ _ _ h h' := h'.trans h.symm

/-- In the heap `σ`, the verifier's variant `a` of an extended statement constructs what the prover's
variant `b` constructs. -/
def Public (σ : Store) (a b : ExtSpec E) : Prop :=
  a.cls = b.cls ∧ a.validate = b.validate ∧
    ∀ σ' v k, b.construct σ' v = .ok k → ∃ k', a.construct σ v = .ok k' ∧ Tree.blank k' = Tree.blank k

instance : Judged (Leaf E) where
  judge σ
    | .dlrep sv, .dlrep s => sv.norm = s.norm
    | .ext sv, .ext s => Public σ sv.spec s.spec
    | _, _ => False
  judge_blank σ lv l l' h h' := by
    cases lv <;> cases l <;> cases l' <;> simp only [Blank.blank, Leaf.dlrep.injEq, Leaf.ext.injEq,
      reduceCtorEq] at h h' ⊢
    · exact h'.trans h.symm
    · simp only [Ext.mk.injEq, and_true] at h
      rw [h]; exact h'

namespace Tree
variable {L : Type} [Blank L] [Judged L]

mutual
/-- `Judged.judge` for trees. -/
def Judge (σ : Store) : Tree L → Tree L → Prop
  | .leaf lv, .leaf l => Judged.judge σ lv l
  | .and _ tvs, .and _ ts => JudgeL σ tvs ts
  | .or _ tvs, .or _ ts => JudgeL σ tvs ts
  | _, _ => False
def JudgeL (σ : Store) : List (Tree L) → List (Tree L) → Prop
  | [], [] => True
  | tv :: tvs, t :: ts => Judge σ tv t ∧ JudgeL σ tvs ts
  | _, _ => False
end

theorem judge_and_inv {σ : Store} {tv : Tree L} {s : Bool} {ts : List (Tree L)}
    (h : Judge σ tv (.and s ts)) : ∃ s' tvs, tv = .and s' tvs ∧ JudgeL σ tvs ts := by
  cases tv with
  | leaf l => simp [Judge] at h
  | or _ _ => simp [Judge] at h
  | and s' tvs => exact ⟨s', tvs, rfl, by simpa [Judge] using h⟩

theorem judge_or_inv {σ : Store} {tv : Tree L} {s : Bool} {ts : List (Tree L)}
    (h : Judge σ tv (.or s ts)) : ∃ s' tvs, tv = .or s' tvs ∧ JudgeL σ tvs ts := by
  cases tv with
  | leaf l => simp [Judge] at h
  | and _ _ => simp [Judge] at h
  | or s' tvs => exact ⟨s', tvs, rfl, by simpa [Judge] using h⟩

theorem judge_leaf_inv {σ : Store} {tv : Tree L} {l : L}
    (h : Judge σ tv (.leaf l)) : ∃ l', tv = .leaf l' ∧ Judged.judge σ l' l := by
  cases tv with
  | and _ _ => simp [Judge] at h
  | or _ _ => simp [Judge] at h
  | leaf l' => exact ⟨l', rfl, by simpa [Judge] using h⟩

theorem judge_blank {σ : Store} : ∀ {t t' tv : Tree L}, Tree.blank t' = Tree.blank t → Judge σ tv t →
    Judge σ tv t' := by
  have loop : ∀ (ts : List (Tree L)), (∀ t ∈ ts, ∀ (t' tv : Tree L), Tree.blank t' = Tree.blank t →
      Judge σ tv t → Judge σ tv t') → ∀ (ts' tvs : List (Tree L)), Tree.blankL ts' = Tree.blankL ts →
      JudgeL σ tvs ts → JudgeL σ tvs ts' := by
    intro ts
    induction ts with
    | nil =>
      intro _ ts' tvs h hj
      cases ts' with
      | nil => exact hj
      | cons => simp [Tree.blankL] at h
    | cons t ts ih =>
      intro hm ts' tvs h hj
      cases ts' with
      | nil => simp [Tree.blankL] at h
      | cons t' ts' =>
        simp only [Tree.blankL, List.cons.injEq] at h
        cases tvs with
        | nil => simp [JudgeL] at hj
        | cons tv tvs =>
          simp only [JudgeL] at hj ⊢
          exact ⟨hm t (by simp) t' tv h.1 hj.1, ih (fun t ht => hm t (by simp [ht])) ts' tvs h.2 hj.2⟩
  intro t
  induction t using Tree.ind with
  | leaf l =>
    intro t' tv h hj
    obtain ⟨l', rfl, hb⟩ := Tree.blank_leaf_inv h
    obtain ⟨lv, rfl, hj⟩ := judge_leaf_inv hj
    simp only [Judge]
    exact Judged.judge_blank σ lv l l' hb hj
  | and s ts ih =>
    intro t' tv h hj
    obtain ⟨s', ts', rfl, hb⟩ := Tree.blank_and_inv h
    obtain ⟨s2, tvs, rfl, hj⟩ := judge_and_inv hj
    simp only [Judge]
    exact loop ts (fun t ht t' tv => ih t ht) ts' tvs hb hj
  | or s ts ih =>
    intro t' tv h hj
    obtain ⟨s', ts', rfl, hb⟩ := Tree.blank_or_inv h
    obtain ⟨s2, tvs, rfl, hj⟩ := judge_or_inv hj
    simp only [Judge]
    exact loop ts (fun t ht t' tv => ih t ht) ts' tvs hb hj

theorem judge_of_blank {σ : Store} : ∀ {t tv : Tree L},
    (∀ l lv : L, Blank.blank lv = Blank.blank l → Judged.judge σ lv l) →
    Tree.blank tv = Tree.blank t → Judge σ tv t := by
  intro t tv hl
  have loop : ∀ (ts : List (Tree L)), (∀ t ∈ ts, ∀ (tv : Tree L), Tree.blank tv = Tree.blank t →
      Judge σ tv t) → ∀ (tvs : List (Tree L)), Tree.blankL tvs = Tree.blankL ts → JudgeL σ tvs ts := by
    intro ts
    induction ts with
    | nil =>
      intro _ tvs h
      cases tvs with
      | nil => simp [JudgeL]
      | cons => simp [Tree.blankL] at h
    | cons t ts ih =>
      intro hm tvs h
      cases tvs with
      | nil => simp [Tree.blankL] at h
      | cons tv tvs =>
        simp only [Tree.blankL, List.cons.injEq] at h
        simp only [JudgeL]
        exact ⟨hm t (by simp) tv h.1, ih (fun t ht => hm t (by simp [ht])) tvs h.2⟩
  induction t using Tree.ind generalizing tv with
  | leaf l =>
    intro h
    obtain ⟨l', rfl, hb⟩ := Tree.blank_leaf_inv h
    simp only [Judge]
    exact hl l l' hb
  | and s ts ih =>
    intro h
    obtain ⟨s', ts', rfl, hb⟩ := Tree.blank_and_inv h
    simp only [Judge]
    exact loop ts (fun t ht tv => ih t ht) ts' hb
  | or s ts ih =>
    intro h
    obtain ⟨s', ts', rfl, hb⟩ := Tree.blank_or_inv h
    simp only [Judge]
    exact loop ts (fun t ht tv => ih t ht) ts' hb

end Tree

theorem judge_core {σ : Store} {t tv : Core E} (h : Tree.blank tv = Tree.blank t) : Tree.Judge σ tv t :=
  Tree.judge_of_blank (fun _ _ h => h) h

section
variable {L : Type} [StmtOps E L] [StmtView E L] [Blank L] [Judged L]

/-- A verifier for the statement that digests `v` arrives at the same statement. -/
def Accepts (t : Tree L) (v : Val E) : Prop :=
  ∀ (σ : Store) (tv : Tree L), Tree.Judge σ tv t →
    ∃ t1, Tree.process σ (Tree.freshVerifier tv) v = .ok t1 ∧ Tree.skel t1 = Tree.skel t ∧
      Tree.core t1 = Tree.core t ∧ Tree.Ready t1 ∧ Tree.fullValidate t1 = Tree.fullValidate t

/-- The statement needs no precommitment. -/
def Bare (t : Tree L) : Prop :=
  ∀ (σ : Store) (tv : Tree L), Tree.Judge σ tv t →
    Tree.skel (Tree.freshVerifier tv) = Tree.skel t ∧
      Tree.core (Tree.freshVerifier tv) = Tree.core t ∧ Tree.Ready (Tree.freshVerifier tv) ∧
        Tree.fullValidate (Tree.freshVerifier tv) = Tree.fullValidate t

/-- `Accepts`, and precommitments that count as missing are missing rightly. -/
def AcceptsT (t : Tree L) (v : Val E) : Prop :=
  Accepts t v ∧ (v.truthy = false → v = .none ∧ Bare t)

/-- `Accepts`, and precommitments that are missing are missing rightly. -/
def Digests (t : Tree L) (v : Val E) : Prop := Accepts t v ∧ (v = .none → Bare t)

theorem AcceptsT.digests {t : Tree L} {v : Val E} (h : AcceptsT t v) : Digests t v :=
  ⟨h.1, fun e => by subst e; exact (h.2 rfl).2⟩

theorem bareL {σ : Store} {ts : List (Tree L)} (h : ∀ t ∈ ts, Bare t) : ∀ (tvs : List (Tree L)),
    Tree.JudgeL σ tvs ts →
    Tree.skelL (Tree.freshVerifierL tvs) = Tree.skelL ts ∧
      Tree.coreL (Tree.freshVerifierL tvs) = Tree.coreL ts ∧ Tree.ReadyL (Tree.freshVerifierL tvs) ∧
        Tree.fullValidateL (Tree.freshVerifierL tvs) = Tree.fullValidateL ts := by
  induction ts with
  | nil =>
    intro tvs htv
    cases tvs with
    | nil => exact ⟨rfl, rfl, trivial, rfl⟩
    | cons => simp [Tree.JudgeL] at htv
  | cons t ts ih =>
    intro tvs htv
    cases tvs with
    | nil => simp [Tree.JudgeL] at htv
    | cons tv tvs =>
      simp only [Tree.JudgeL] at htv
      obtain ⟨e1, e2, e3, e4⟩ := h t (by simp) σ tv htv.1
      obtain ⟨f1, f2, f3, f4⟩ := ih (fun t ht => h t (by simp [ht])) tvs htv.2
      refine ⟨?_, ?_, ?_, ?_⟩
      · simp only [Tree.freshVerifierL, Tree.skelL, e1, f1]
      · simp only [Tree.freshVerifierL, Tree.coreL, e2, f2]
      · exact ⟨e3, f3⟩
      · simp only [Tree.freshVerifierL, Tree.fullValidateL, e4, f4]

theorem bare_and {s : Bool} {ts : List (Tree L)} (h : ∀ t ∈ ts, Bare t) : Bare (.and s ts) := by
  intro σ tv htv
  obtain ⟨s', tvs, rfl, htvs⟩ := Tree.judge_and_inv htv
  obtain ⟨e1, e2, e3, e4⟩ := bareL h tvs htvs
  refine ⟨?_, ?_, ?_, ?_⟩
  · simp only [Tree.freshVerifier, Tree.skel, e1]
  · simp only [Tree.freshVerifier, Tree.core, e2]
  · simpa only [Tree.freshVerifier, Tree.Ready] using e3
  · simpa only [Tree.freshVerifier, Tree.fullValidate] using e4

theorem bare_or {s : Bool} {ts : List (Tree L)} (h : ∀ t ∈ ts, Bare t) : Bare (.or s ts) := by
  intro σ tv htv
  obtain ⟨s', tvs, rfl, htvs⟩ := Tree.judge_or_inv htv
  obtain ⟨e1, e2, e3, e4⟩ := bareL h tvs htvs
  refine ⟨?_, ?_, ?_, ?_⟩
  · simp only [Tree.freshVerifier, Tree.skel, e1]
  · simp only [Tree.freshVerifier, Tree.core, e2]
  · simpa only [Tree.freshVerifier, Tree.Ready] using e3
  · simpa only [Tree.freshVerifier, Tree.fullValidate] using e4

theorem acceptsT_none_and {s : Bool} {ts : List (Tree L)} (h : ∀ t ∈ ts, Bare t) :
    AcceptsT (.and s ts) .none := by
  refine ⟨?_, fun _ => ⟨rfl, bare_and h⟩⟩
  intro σ tv htv
  refine ⟨Tree.freshVerifier tv, ?_, bare_and h σ tv htv⟩
  obtain ⟨s', tvs, rfl, htvs⟩ := Tree.judge_and_inv htv
  simp [Tree.freshVerifier, Tree.process, Val.isNone]

theorem acceptsT_none_or {s : Bool} {ts : List (Tree L)} (h : ∀ t ∈ ts, Bare t) :
    AcceptsT (.or s ts) .none := by
  refine ⟨?_, fun _ => ⟨rfl, bare_or h⟩⟩
  intro σ tv htv
  refine ⟨Tree.freshVerifier tv, ?_, bare_or h σ tv htv⟩
  obtain ⟨s', tvs, rfl, htvs⟩ := Tree.judge_or_inv htv
  simp [Tree.freshVerifier, Tree.process, Val.isNone]

theorem accepts_processL (σ : Store) {ts : List (Tree L)} {vs : List (Val E)}
    (h : List.Forall₂ AcceptsT ts vs) : ∀ (pre : List (Val E)) (tvs : List (Tree L)),
    Tree.JudgeL σ tvs ts →
    ∃ ts1, Tree.processL σ (Tree.freshVerifierL tvs) pre.length (.list (pre ++ vs)) = .ok ts1 ∧
      Tree.skelL ts1 = Tree.skelL ts ∧ Tree.coreL ts1 = Tree.coreL ts ∧ Tree.ReadyL ts1 ∧
        Tree.fullValidateL ts1 = Tree.fullValidateL ts := by
  induction h with
  | nil =>
    intro pre tvs htv
    cases tvs with
    | nil => exact ⟨[], rfl, rfl, rfl, trivial, rfl⟩
    | cons => simp [Tree.JudgeL] at htv
  | @cons t v ts vs h1 _ ih =>
    intro pre tvs htv
    cases tvs with
    | nil => simp [Tree.JudgeL] at htv
    | cons tv tvs =>
      simp only [Tree.JudgeL] at htv
      obtain ⟨t1, e1, e2, e3, e4, e5⟩ := h1.1 σ tv htv.1
      obtain ⟨ts1, f1, f2, f3, f4, f5⟩ := ih (pre ++ [v]) tvs htv.2
      refine ⟨t1 :: ts1, ?_, ?_, ?_, ⟨e4, f4⟩, by simp only [Tree.fullValidateL, e5, f5]⟩
      · simp only [Tree.freshVerifierL, Tree.processL]
        have : (Val.list (pre ++ v :: vs)).index pre.length = .ok v := by
          rw [index_list]; simp
        rw [this, bind_ok, e1, bind_ok]
        simp only [List.length_append, List.length_cons, List.length_nil, List.append_assoc,
          List.cons_append, List.nil_append, Nat.zero_add] at f1
        rw [f1]; rfl
      · simp only [Tree.skelL, e2, f2]
      · simp only [Tree.coreL, e3, f3]

theorem acceptsT_list_and {s : Bool} {ts : List (Tree L)} {vs : List (Val E)} (hne : vs ≠ [])
    (h : List.Forall₂ AcceptsT ts vs) : AcceptsT (.and s ts) (.list vs) := by
  refine ⟨?_, ?_⟩
  · intro σ tv htv
    obtain ⟨s', tvs, rfl, htvs⟩ := Tree.judge_and_inv htv
    obtain ⟨ts1, f1, f2, f3, f4, f5⟩ := accepts_processL σ h [] tvs htvs
    refine ⟨.and s' ts1, ?_, ?_, ?_, f4, f5⟩
    · simp only [List.length_nil, List.nil_append] at f1
      simp [Tree.freshVerifier, Tree.process, Val.isNone, f1, bind_ok]
    · simp only [Tree.skel, f2]
    · simp only [Tree.core, f3]
  · intro ht
    cases vs with
    | nil => exact absurd rfl hne
    | cons => simp [Val.truthy] at ht

theorem acceptsT_list_or {s : Bool} {ts : List (Tree L)} {vs : List (Val E)} (hne : vs ≠ [])
    (h : List.Forall₂ AcceptsT ts vs) : AcceptsT (.or s ts) (.list vs) := by
  refine ⟨?_, ?_⟩
  · intro σ tv htv
    obtain ⟨s', tvs, rfl, htvs⟩ := Tree.judge_or_inv htv
    obtain ⟨ts1, f1, f2, f3, f4, f5⟩ := accepts_processL σ h [] tvs htvs
    refine ⟨.or s' ts1, ?_, ?_, ?_, f4, f5⟩
    · simp only [List.length_nil, List.nil_append] at f1
      simp [Tree.freshVerifier, Tree.process, Val.isNone, f1, bind_ok]
    · simp only [Tree.skel, f2]
    · simp only [Tree.core, f3]
  · intro ht
    cases vs with
    | nil => exact absurd rfl hne
    | cons => simp [Val.truthy] at ht

theorem forall₂_bare {ts : List (Tree L)} {vs : List (Val E)} (h : List.Forall₂ AcceptsT ts vs)
    (hv : ∀ v ∈ vs, v.truthy = false) : ∀ t ∈ ts, Bare t := by
  induction h with
  | nil => simp
  | cons h1 _ ih =>
    intro t ht
    rcases List.mem_cons.mp ht with rfl | ht
    · exact (h1.2 (hv _ (by simp))).2
    · exact ih (fun v hv' => hv v (by simp [hv'])) t ht

/-- Conjunction of precommitments. -/
theorem acceptsT_and {s : Bool} {ts : List (Tree L)} {vs : List (Val E)}
    (h : List.Forall₂ AcceptsT ts vs) : AcceptsT (.and s ts) (PTree.andPrecommitment vs) := by
  unfold PTree.andPrecommitment
  split
  · rename_i hv
    refine acceptsT_none_and (forall₂_bare h fun v hv' => ?_)
    have := List.all_eq_true.mp hv v hv'
    rw [isNone_iff] at this; subst this; rfl
  · rename_i hv
    refine acceptsT_list_and ?_ h
    rintro rfl; simp at hv

/-- Disjunction of precommitments. -/
theorem acceptsT_or {s : Bool} {ts : List (Tree L)} {vs : List (Val E)}
    (h : List.Forall₂ AcceptsT ts vs) :
    AcceptsT (.or s ts) (if vs.any Val.truthy then .list vs else .none) := by
  split
  · rename_i hv
    refine acceptsT_list_or ?_ h
    rintro rfl; simp at hv
  · rename_i hv
    refine acceptsT_none_or (forall₂_bare h fun v hv' => ?_)
    rw [← Bool.not_eq_true]
    exact fun e => hv (List.any_eq_true.mpr ⟨v, hv', e⟩)

/-- All leaves satisfy `GL`, no composition is empty. -/
inductive Good {L : Type} (GL : L → Prop) : Tree L → Prop
  | leaf (l : L) (h : GL l) : Good GL (.leaf l)
  | and (s : Bool) (ts : List (Tree L)) (hne : ts ≠ []) (h : ∀ t ∈ ts, Good GL t) : Good GL (.and s ts)
  | or (s : Bool) (ts : List (Tree L)) (hne : ts ≠ []) (h : ∀ t ∈ ts, Good GL t) : Good GL (.or s ts)

/-- Precommitments of simulated transcripts. -/
theorem simulate_accepts (SL : L → Prop)
    (hleaf : ∀ (l : L) (w w' : World) (d : Option (Dict Int)) (c : Option Int) (sim : Sim E),
      SL l → StmtOps.simulate l d c w = .ok (sim, w') → AcceptsT (.leaf l) sim.precommitment) :
    ∀ (t : Tree L), Good SL t →
    ∀ (w w' : World) (d : Option (Dict Int)) (c : Option Int) (sim : Sim E),
      Tree.simulate t d c w = .ok (sim, w') → AcceptsT t sim.precommitment := by
  intro t
  induction t using Tree.ind with
  | leaf l =>
    intro hg w w' d c sim h
    cases hg with
    | leaf _ hg =>
    simp only [Tree.simulate] at h
    exact hleaf l w w' d c sim hg h
  | and s subs ih =>
    intro hg w w' d c sim h
    cases hg with
    | and _ _ hne hg =>
    simp only [Tree.simulate] at h
    obtain ⟨d', w1, h1, h⟩ := pm_bind.mp h
    obtain ⟨c', w2, h2, h⟩ := pm_bind.mp h
    obtain ⟨sims, w3, h3, h⟩ := pm_bind.mp h
    rw [pm_pure_iff, Prod.mk.injEq] at h
    obtain ⟨hsim, _⟩ := h
    have loop : ∀ (ts : List (Tree L)), (∀ t ∈ ts, t ∈ subs) →
        ∀ (w w' : World) (sims : List (Sim E)),
        Tree.simulateAnd ts d' c' w = .ok (sims, w') →
        List.Forall₂ AcceptsT ts (sims.map Sim.precommitment) := by
      intro ts
      induction ts with
      | nil =>
        intro _ w w' sims h
        simp only [Tree.simulateAnd, pm_pure_iff, Prod.mk.injEq] at h
        rw [← h.1]; exact .nil
      | cons t ts ihl =>
        intro hm w w' sims h
        simp only [Tree.simulateAnd] at h
        obtain ⟨s1, w1, h1, h⟩ := pm_bind.mp h
        obtain ⟨ss, w2, h2, h⟩ := pm_bind.mp h
        rw [pm_pure_iff, Prod.mk.injEq] at h
        rw [← h.1]
        exact .cons (ih t (hm t (by simp)) (hg t (hm t (by simp))) _ _ _ _ _ h1)
          (ihl (fun t ht => hm t (by simp [ht])) _ _ _ h2)
    have := loop subs (fun _ h => h) _ _ _ h3
    rw [← hsim]
    refine acceptsT_list_and ?_ this
    intro e
    rw [e] at this
    cases this
    exact hne rfl
  | or s subs ih =>
    intro hg w w' d c sim h
    cases hg with
    | or _ _ hne hg =>
    simp only [Tree.simulate] at h
    obtain ⟨c', w2, h2, h⟩ := pm_bind.mp h
    obtain ⟨sims, w3, h3, h⟩ := pm_bind.mp h
    rw [pm_pure_iff, Prod.mk.injEq] at h
    obtain ⟨hsim, _⟩ := h
    have loop : ∀ (ts : List (Tree L)), (∀ t ∈ ts, t ∈ subs) → ∀ (acc : List Int) (w w' : World)
        (sims : List (Sim E)), Tree.simulateOr ts c' acc w = .ok (sims, w') →
        List.Forall₂ AcceptsT ts (sims.map Sim.precommitment) := by
      intro ts
      induction ts with
      | nil =>
        intro _ acc w w' sims h
        simp only [Tree.simulateOr, pm_pure_iff, Prod.mk.injEq] at h
        rw [← h.1]; exact .nil
      | cons t ts ihl =>
        intro hm acc w w' sims h
        cases ts with
        | nil =>
          simp only [Tree.simulateOr] at h
          obtain ⟨s1, w1, h1, h⟩ := pm_bind.mp h
          rw [pm_pure_iff, Prod.mk.injEq] at h
          rw [← h.1]
          exact .cons (ih t (hm t (by simp)) (hg t (hm t (by simp))) _ _ _ _ _ h1) .nil
        | cons t2 ts =>
          simp only [Tree.simulateOr] at h
          obtain ⟨s1, w1, h1, h⟩ := pm_bind.mp h
          obtain ⟨ss, w2, h2, h⟩ := pm_bind.mp h
          rw [pm_pure_iff, Prod.mk.injEq] at h
          rw [← h.1]
          exact .cons (ih t (hm t (by simp)) (hg t (hm t (by simp))) _ _ _ _ _ h1)
            (ihl (fun t ht => hm t (List.mem_cons_of_mem _ ht)) _ _ _ _ h2)
    have := loop subs (fun _ h => h) _ _ _ _ h3
    rw [← hsim]
    refine acceptsT_list_or ?_ this
    intro e
    rw [e] at this
    cases this
    exact hne rfl

end

theorem forall₂_insertIdx {α β : Type} {R : α → β → Prop} {l : List α} {l' : List β}
    (h : List.Forall₂ R l l') : ∀ (i : Nat) (a : α) (b : β), R a b →
    List.Forall₂ R (l.insertIdx i a) (l'.insertIdx i b) := by
  induction h with
  | nil =>
    intro i a b hab
    cases i with
    | zero => exact .cons hab .nil
    | succ i => exact .nil
  | cons h1 h2 ih =>
    intro i a b hab
    cases i with
    | zero => exact .cons hab (.cons h1 h2)
    | succ i => exact .cons h1 (ih i a b hab)

section
variable {L P : Type} [StmtOps E L] [StmtView E L] [Blank L] [Judged L] [ProverOps E L P]

/-- A prover whose simulated clauses carry precommitments that can be digested, and whose leaves
satisfy `PL`. -/
inductive Primed (PL : P → Prop) : PTree E L P → Prop
  | leaf (p : P) (h : PL p) : Primed PL (.leaf p)
  | and (s : Bool) (subs : List (PTree E L P)) (hne : subs ≠ []) (h : ∀ p ∈ subs, Primed PL p) :
      Primed PL (.and s subs)
  | or (s : Bool) (idx : Nat) (stmts : List (Tree L)) (sub : PTree E L P) (sims : List (Sim E))
      (hidx : idx < stmts.length)
      (hsims : List.Forall₂ AcceptsT (stmts.eraseIdx idx) (sims.map Sim.precommitment))
      (hcore : ∀ t ∈ stmts.eraseIdx idx, ∃ k, Tree.core t = some k ∧ WellFormed k)
      (h : Primed PL sub) : Primed PL (.or s idx stmts sub sims)

theorem coreL_of_forall : ∀ (ts : List (Tree L)), (∀ t ∈ ts, ∃ k, Tree.core t = some k ∧ WellFormed k) →
    ∃ ks, Tree.coreL ts = some ks ∧ WellFormedL ks ∧ ks.length = ts.length
  | [], _ => ⟨[], rfl, trivial, rfl⟩
  | t :: ts, h => by
    obtain ⟨k, h1, h2⟩ := h t (by simp)
    obtain ⟨ks, h3, h4, h5⟩ := coreL_of_forall ts fun t ht => h t (by simp [ht])
    exact ⟨k :: ks, Tree.coreL_cons.mpr ⟨k, ks, h1, h3, rfl⟩, ⟨h2, h4⟩, by simp [h5]⟩

theorem core_and_of_forall {ts : List (Tree L)} (s : Bool) (hne : ts ≠ [])
    (h : ∀ t ∈ ts, ∃ k, Tree.core t = some k ∧ WellFormed k) :
    ∃ k, Tree.core (.and s ts) = some k ∧ WellFormed k := by
  obtain ⟨ks, h1, h2, h3⟩ := coreL_of_forall ts h
  refine ⟨.and false ks, by simp [Tree.core, h1], ?_, h2⟩
  rintro rfl
  exact hne (List.length_eq_zero_iff.mp h3.symm)

theorem core_or_of_forall {ts : List (Tree L)} (s : Bool) (hne : ts ≠ [])
    (h : ∀ t ∈ ts, ∃ k, Tree.core t = some k ∧ WellFormed k) :
    ∃ k, Tree.core (.or s ts) = some k ∧ WellFormed k := by
  obtain ⟨ks, h1, h2, h3⟩ := coreL_of_forall ts h
  refine ⟨.or false ks, by simp [Tree.core, h1], ?_, h2⟩
  rintro rfl
  exact hne (List.length_eq_zero_iff.mp h3.symm)

/-- `σ'` and `σ` agree on the secrets in `S`. -/
def Same (S : Sec → Prop) (σ σ' : Store) : Prop := ∀ x, S x → σ'.key x = σ.key x

theorem Same.refl (S : Sec → Prop) (σ : Store) : Same S σ σ := fun _ _ => rfl

theorem Same.trans {S : Sec → Prop} {σ σ1 σ2 : Store} (h : Same S σ σ1) (h' : Same S σ1 σ2) :
    Same S σ σ2 := fun x hx => (h' x hx).trans (h x hx)

theorem agree_same {σ σ' : Store} {k : Core E} {r : Val E} {ρ : Key → Val E} (h : Agree σ k r ρ) :
    (∀ x ∈ secrets k, σ'.key x = σ.key x) → Agree σ' k r ρ := by
  induction h with
  | rep s r ρ h =>
    intro hf
    refine .rep s r _ fun i x hx => ?_
    rw [h i x hx, hf x (by simp only [secrets]; exact List.mem_of_getElem? hx)]
  | all sim subs r ρ ri hri h ih =>
    intro hf
    refine .all sim subs r _ ri hri fun i t ht => ih i t ht fun x hx => hf x ?_
    exact mem_secretsL.mpr ⟨t, List.mem_of_getElem? ht, hx⟩
  | any sim subs r rs ρ ri ρi hrs hri h ih =>
    intro hf
    refine .any sim subs r rs _ ri ρi hrs hri fun i t ht => ih i t ht fun x hx => hf x ?_
    exact mem_secretsL.mpr ⟨t, List.mem_of_getElem? ht, hx⟩

/-- Secrets of the statements of a list. -/
def InCores (ts : List (Tree L)) (x : Sec) : Prop := ∃ t ∈ ts, ∃ k, Tree.core t = some k ∧ x ∈ secrets k

theorem simsOK_same {σ σ' : Store} {ts : List (Tree L)} {sims : List (Sim E)} (h : SimsOK σ ts sims)
    (hs : Same (InCores ts) σ σ') : SimsOK σ' ts sims := by
  refine ⟨h.1, fun j t sim ht hsim => ?_⟩
  obtain ⟨k, h1, h2, ρ, h3⟩ := h.2 j t sim ht hsim
  exact ⟨k, h1, h2, ρ, agree_same h3 fun x hx => hs x ⟨t, List.mem_of_getElem? ht, k, h1, hx⟩⟩

/-- Secrets that precommitting writes. -/
inductive Foot (foot : P → Sec → Prop) : PTree E L P → Sec → Prop
  | leaf (p : P) (x : Sec) (h : foot p x) : Foot foot (.leaf p) x
  | and (s : Bool) (subs : List (PTree E L P)) (p : PTree E L P) (x : Sec) (hp : p ∈ subs)
      (h : Foot foot p x) : Foot foot (.and s subs) x
  | or (s : Bool) (idx : Nat) (stmts : List (Tree L)) (sub : PTree E L P) (sims : List (Sim E))
      (x : Sec) (h : Foot foot sub x) : Foot foot (.or s idx stmts sub sims) x

/-- Secrets that matter for a prover. -/
inductive Scope (scope : P → Sec → Prop) : PTree E L P → Sec → Prop
  | leaf (p : P) (x : Sec) (h : scope p x) : Scope scope (.leaf p) x
  | and (s : Bool) (subs : List (PTree E L P)) (p : PTree E L P) (x : Sec) (hp : p ∈ subs)
      (h : Scope scope p x) : Scope scope (.and s subs) x
  | or (s : Bool) (idx : Nat) (stmts : List (Tree L)) (sub : PTree E L P) (sims : List (Sim E))
      (x : Sec) (h : Scope scope sub x) : Scope scope (.or s idx stmts sub sims) x
  | sims (s : Bool) (idx : Nat) (stmts : List (Tree L)) (sub : PTree E L P) (sims : List (Sim E))
      (x : Sec) (h : InCores (stmts.eraseIdx idx) x) : Scope scope (.or s idx stmts sub sims) x

/-- Precommitting in one place does not disturb another place. -/
inductive Apart (foot scope : P → Sec → Prop) : PTree E L P → Prop
  | leaf (p : P) : Apart foot scope (.leaf p)
  | and (s : Bool) (subs : List (PTree E L P)) (h : ∀ p ∈ subs, Apart foot scope p)
      (hd : ∀ (i j : Nat) (p q : PTree E L P) (x : Sec), i ≠ j → subs[i]? = some p → subs[j]? = some q → Foot foot p x →
        ¬ Scope scope q x) : Apart foot scope (.and s subs)
  | or (s : Bool) (idx : Nat) (stmts : List (Tree L)) (sub : PTree E L P) (sims : List (Sim E))
      (h : Apart foot scope sub) (hd : ∀ x, Foot foot sub x → ¬ InCores (stmts.eraseIdx idx) x) :
      Apart foot scope (.or s idx stmts sub sims)

/-- What a leaf prover has to do when precommitting: write only to `foot p`, and be honest afterwards
in every heap that is the same on `scope p`. -/
def PrecommitLeaf (PL HL : Store → P → Prop) (foot scope : P → Sec → Prop) : Prop :=
  ∀ (p p' : P) (w w' : World) (v : Val E), PL w.store p →
    ProverOps.precommit p w = .ok ((v, p'), w') →
    Same (fun x => ¬ foot p x) w.store w'.store ∧
      (∀ σ, Same (scope p) w'.store σ → HL σ p') ∧
      AcceptsT (.leaf (ProverOps.stmtOf p')) v ∧
      (∃ k, StmtView.core (ProverOps.stmtOf p') = some k ∧ WellFormed k) ∧
      Blank.blank (ProverOps.stmtOf p') = Blank.blank (ProverOps.stmtOf p)

theorem primed_stab {PL : Store → P → Prop} {scope : P → Sec → Prop}
    (hstab : ∀ p σ σ', PL σ p → Same (scope p) σ σ' → PL σ' p) :
    ∀ (p : PTree E L P) (σ σ' : Store), Primed (PL σ) p →
      Same (Scope scope p) σ σ' → Primed (PL σ') p := by
  intro p
  induction p using PTree.ind with
  | leaf p =>
    intro σ σ' h hs
    cases h with
    | leaf _ h => exact .leaf p (hstab p σ σ' h fun x hx => hs x (.leaf p x hx))
  | and s subs ih =>
    intro σ σ' h hs
    cases h with
    | and _ _ hne h =>
      exact .and s subs hne fun p hp => ih p hp σ σ' (h p hp) fun x hx => hs x (.and s subs p x hp hx)
  | or s idx stmts sub sims ih =>
    intro σ σ' h hs
    cases h with
    | or _ _ _ _ _ h1 h2 h3 h =>
      exact .or s idx stmts sub sims h1 h2 h3 (ih σ σ' h fun x hx => hs x (.or _ _ _ _ _ x hx))

theorem honest_stab {PL : Store → P → Prop} {scope : P → Sec → Prop}
    (hstab : ∀ p σ σ', PL σ p → Same (scope p) σ σ' → PL σ' p) :
    ∀ (p : PTree E L P) (σ σ' : Store) (X : Key → Int),
      Honest (fun p _ => PL σ p) σ p X →
      Same (Scope scope p) σ σ' → Honest (fun p _ => PL σ' p) σ' p X := by
  intro p
  induction p using PTree.ind with
  | leaf p =>
    intro σ σ' X h hs
    cases h with
    | leaf _ _ h => exact .leaf p X (hstab p σ σ' h fun x hx => hs x (.leaf p x hx))
  | and s subs ih =>
    intro σ σ' X h hs
    cases h with
    | and _ _ _ h =>
      exact .and s subs X fun p hp => ih p hp σ σ' X (h p hp) fun x hx => hs x (.and s subs p x hp hx)
  | or s idx stmts sub sims ih =>
    intro σ σ' X h hs
    cases h with
    | or _ _ _ _ _ _ X' h1 h2 h =>
      exact .or s idx stmts sub sims X X' h1 (simsOK_same h2 fun x hx => hs x (.sims _ _ _ _ _ x hx))
        (ih σ σ' X' h fun x hx => hs x (.or _ _ _ _ _ x hx))

/-- **Precommitment law.** -/
theorem precommit_law {PL HL : Store → P → Prop} {foot scope : P → Sec → Prop} (X : Key → Int)
    (hstab : ∀ p σ σ', PL σ p → Same (scope p) σ σ' → PL σ' p)
    (hleaf : PrecommitLeaf PL HL foot scope) :
    ∀ (p p' : PTree E L P) (w w' : World) (v : Val E), Primed (PL w.store) p →
      Honest (fun p _ => PL w.store p) w.store p X → Apart foot scope p →
      PTree.precommit p w = .ok ((v, p'), w') →
      Same (fun x => ¬ Foot foot p x) w.store w'.store ∧
      (∀ σ, Same (Scope scope p) w'.store σ → Honest (fun p _ => HL σ p) σ p' X) ∧
      AcceptsT (PTree.stmtOf p') v ∧
        (∃ k, Tree.core (PTree.stmtOf p') = some k ∧ WellFormed k) ∧
        Tree.blank (PTree.stmtOf p') = Tree.blank (PTree.stmtOf p) := by
  intro p
  induction p using PTree.ind generalizing X with
  | leaf p =>
    intro p' w w' v hp _ _ h
    cases hp with
    | leaf _ hp =>
    simp only [PTree.precommit] at h
    obtain ⟨⟨v1, q⟩, w1, h1, h⟩ := pm_bind.mp h
    rw [pm_pure_iff, Prod.mk.injEq, Prod.mk.injEq] at h
    obtain ⟨⟨hv, hp'⟩, hw'⟩ := h
    rw [← hv, ← hp', ← hw']
    obtain ⟨e1, e2, e3, e4, e5⟩ := hleaf p q w w1 v1 hp h1
    refine ⟨fun x hx => e1 x fun hf => hx (.leaf p x hf), fun σ hσ => .leaf q X (e2 σ fun x hx => hσ x (.leaf p x hx)),
      e3, e4, by simp only [PTree.stmtOf, Tree.blank, e5]⟩
  | and s subs ih =>
    intro p' w w' v hp hh ha h
    cases hp with
    | and _ _ hne hp =>
    cases hh with
    | and _ _ _ hh =>
    cases ha with
    | and _ _ ha hd =>
    have loop : ∀ (ps : List (PTree E L P)) (off : Nat), (∀ i, subs[off + i]? = ps[i]?) →
        ∀ (w w' : World)
        (vs : List (Val E)) (ps' : List (PTree E L P)), (∀ p ∈ ps, Primed (PL w.store) p) →
        (∀ p ∈ ps, Honest (fun p _ => PL w.store p) w.store p X) →
        PTree.precommitL ps w = .ok ((vs, ps'), w') →
        Same (fun x => ∀ p ∈ ps, ¬ Foot foot p x) w.store w'.store ∧
        (∀ σ, Same (fun x => ∃ p ∈ ps, Scope scope p x) w'.store σ →
          ∀ p ∈ ps', Honest (fun p _ => HL σ p) σ p X) ∧
        List.Forall₂ AcceptsT (PTree.stmtOfL ps') vs ∧
          (∀ t ∈ PTree.stmtOfL ps', ∃ k, Tree.core t = some k ∧ WellFormed k) ∧
          Tree.blankL (PTree.stmtOfL ps') = Tree.blankL (PTree.stmtOfL ps) := by
      intro ps
      induction ps with
      | nil =>
        intro _ _ w w' vs ps' _ _ h
        simp only [PTree.precommitL, pm_pure_iff, Prod.mk.injEq] at h
        rw [← h.1.1, ← h.1.2, ← h.2]
        exact ⟨Same.refl _ _, by simp, .nil, by simp [PTree.stmtOfL], rfl⟩
      | cons p ps ihl =>
        intro off hoff w w' vs ps' hp hh h
        simp only [PTree.precommitL] at h
        obtain ⟨⟨v1, p1⟩, w1, h1, h⟩ := pm_bind.mp h
        obtain ⟨⟨vs1, ps1⟩, w2, h2, h⟩ := pm_bind.mp h
        rw [pm_pure_iff, Prod.mk.injEq, Prod.mk.injEq] at h
        rw [← h.1.1, ← h.1.2, ← h.2]
        have h0 : subs[off]? = some p := by simpa using hoff 0
        have hpm : p ∈ subs := List.mem_of_getElem? h0
        have hq : ∀ q ∈ ps, (∀ x, Foot foot p x → ¬ Scope scope q x) ∧
            (∀ x, Foot foot q x → ¬ Scope scope p x) := by
          intro q hq
          obtain ⟨j, hj⟩ := List.getElem?_of_mem hq
          have hj' : subs[off + (j + 1)]? = some q := by rw [hoff (j + 1)]; simpa using hj
          exact ⟨fun x => hd off (off + (j + 1)) p q x (by omega) h0 hj',
            fun x => hd (off + (j + 1)) off q p x (by omega) hj' h0⟩
        obtain ⟨e1, e2, e3, e4, e5⟩ := ih p hpm X p1 w w1 v1 (hp p (by simp)) (hh p (by simp)) (ha p hpm) h1
        have hkeep : ∀ q ∈ ps, Same (Scope scope q) w.store w1.store := fun q hq' x hx =>
          e1 x fun hf => (hq q hq').1 x hf hx
        obtain ⟨f1, f2, f3, f4, f5⟩ := ihl (off + 1)
          (fun i => by have := hoff (i + 1); rw [show off + 1 + i = off + (i + 1) by omega, this]; simp)
          w1 w2 vs1 ps1 (fun q hq' => primed_stab hstab q _ _ (hp q (by simp [hq'])) (hkeep q hq'))
          (fun q hq' => honest_stab hstab q _ _ X (hh q (by simp [hq'])) (hkeep q hq')) h2
        refine ⟨?_, ?_, .cons e3 f3, ?_, ?_⟩
        · intro x hx
          exact (f1 x fun q hq' => hx q (by simp [hq'])).trans (e1 x (hx p (by simp)))
        · intro σ hσ
          refine List.forall_mem_cons.mpr ⟨e2 σ ?_, f2 σ fun x hx => ?_⟩
          · intro x hx
            rw [hσ x ⟨p, by simp, hx⟩]
            exact f1 x fun q hq' hf => (hq q hq').2 x hf hx
          · obtain ⟨q, hq', hx⟩ := hx
            exact hσ x ⟨q, by simp [hq'], hx⟩
        · simp only [PTree.stmtOfL]; exact List.forall_mem_cons.mpr ⟨e4, f4⟩
        · simp only [PTree.stmtOfL, Tree.blankL, e5, f5]
    simp only [PTree.precommit] at h
    obtain ⟨⟨vs, ps'⟩, w1, h1, h⟩ := pm_bind.mp h
    rw [pm_pure_iff, Prod.mk.injEq, Prod.mk.injEq] at h
    rw [← h.1.1, ← h.1.2, ← h.2]
    obtain ⟨e1, e2, e3, e4, e5⟩ := loop subs 0 (fun i => by simp) w w1 vs ps' hp hh h1
    have hne' : PTree.stmtOfL ps' ≠ [] := by
      intro e
      rw [e] at e5
      cases subs with
      | nil => exact hne rfl
      | cons => simp [PTree.stmtOfL, Tree.blankL] at e5
    refine ⟨fun x hx => e1 x fun p hp hf => hx (.and s subs p x hp hf),
      fun σ hσ => .and _ _ _ (e2 σ fun x hx => ?_),
      by simpa only [PTree.stmtOf] using acceptsT_and e3,
      by simpa only [PTree.stmtOf] using core_and_of_forall s hne' e4,
      by simp only [PTree.stmtOf, Tree.blank, e5]⟩
    obtain ⟨p, hp, hx⟩ := hx
    exact hσ x (.and s subs p x hp hx)
  | or s idx stmts sub sims ih =>
    intro p' w w' v hp hh ha h
    cases hp with
    | or _ _ _ _ _ hidx hsims hcore hp =>
    cases hh with
    | or _ _ _ _ _ _ X' _ hso hh =>
    cases ha with
    | or _ _ _ _ _ ha hd =>
    simp only [PTree.precommit] at h
    obtain ⟨⟨v1, p1⟩, w1, h1, h⟩ := pm_bind.mp h
    obtain ⟨vs, hvs, h⟩ := pm_liftE_bind_iff.mp h
    rw [pm_pure_iff, Prod.mk.injEq, Prod.mk.injEq] at h
    rw [← h.1.1, ← h.1.2, ← h.2]
    obtain ⟨e1, e2, e3, e4, e5⟩ := ih X' p1 w w1 v1 hp hh ha h1
    have hl := hsims.length_eq
    rw [List.length_eraseIdx_of_lt hidx] at hl
    have hn : stmts.length = (sims.map Sim.precommitment).length + 1 := by omega
    rw [hn, orSlots_eq _ _ _ (by omega)] at hvs
    injection hvs with hvs
    subst hvs
    refine ⟨fun x hx => e1 x fun hf => hx (.or _ _ _ _ _ x hf), fun σ hσ => .or _ _ _ _ _ _ _ hidx
      (simsOK_same hso fun x hx => ?_) (e2 σ fun x hx => hσ x (.or _ _ _ _ _ x hx)), ?_, ?_, ?_⟩
    · rw [hσ x (.sims _ _ _ _ _ x hx)]
      exact e1 x fun hf => hd x hf hx
    · simp only [PTree.stmtOf]
      apply acceptsT_or
      rw [set_eq_insertIdx _ _ _ hidx]
      exact forall₂_insertIdx hsims _ _ _ e3
    · simp only [PTree.stmtOf]
      rw [set_eq_insertIdx _ _ _ hidx]
      apply core_or_of_forall
      · intro e
        have := congrArg List.length e
        rw [List.length_insertIdx_of_le_length (by rw [List.length_eraseIdx_of_lt hidx]; omega)] at this
        simp at this
      · intro t ht
        rcases List.eq_or_mem_of_mem_insertIdx ht with rfl | ht
        · exact e4
        · exact hcore t ht
    · simp only [PTree.stmtOf, Tree.blank, Tree.blankL_eq, List.map_set, e5]

end

/-! ### DLRep leaves -/

theorem bare_dlrep (s : DLRep E) : Bare (.leaf s : Core E) := by
  intro σ tv htv
  obtain ⟨l', rfl, hl⟩ := Tree.judge_leaf_inv htv
  simp only [Judged.judge, Blank.blank] at hl
  have h1 : l'.lhs = s.lhs := by
      have := congrArg DLRep.lhs hl; exact this
  have h2 : l'.bases = s.bases := by
      have := congrArg DLRep.bases hl; exact this
  have h3 : l'.secretVars = s.secretVars := by
      have := congrArg DLRep.secretVars hl; exact this
  simp [Tree.freshVerifier, StmtOps.freshVerifier, Tree.skel, StmtView.skel, Tree.core,
    StmtView.core, Tree.Ready, StmtView.ready, Tree.fullValidate, StmtOps.fullValidate, h1, h2, h3, hl]

theorem bare_dlrep_leaf (s : DLRep E) : Bare (.leaf (.dlrep s) : Stmt E) := by
  intro σ tv htv
  obtain ⟨l', rfl, hl⟩ := Tree.judge_leaf_inv htv
  cases l' with
  | ext _ => simp [Judged.judge] at hl
  | dlrep l' =>
    simp only [Judged.judge] at hl
    have h1 : l'.lhs = s.lhs := by
      have := congrArg DLRep.lhs hl; exact this
    have h2 : l'.bases = s.bases := by
      have := congrArg DLRep.bases hl; exact this
    have h3 : l'.secretVars = s.secretVars := by
      have := congrArg DLRep.secretVars hl; exact this
    simp [Tree.freshVerifier, StmtOps.freshVerifier, Tree.skel, StmtView.skel, Tree.core,
      StmtView.core, Tree.Ready, StmtView.ready, Tree.fullValidate, StmtOps.fullValidate, h1, h2, h3, hl]

theorem acceptsT_dlrep (s : DLRep E) : AcceptsT (.leaf s : Core E) .none := by
  refine ⟨fun σ tv htv => ⟨Tree.freshVerifier tv, ?_, bare_dlrep s σ tv htv⟩, fun _ => ⟨rfl, bare_dlrep s⟩⟩
  obtain ⟨l', rfl, hl⟩ := Tree.judge_leaf_inv htv
  simp [Tree.freshVerifier, Tree.process, StmtOps.process, StmtOps.freshVerifier, bind_ok]

theorem acceptsT_dlrep_leaf (s : DLRep E) : AcceptsT (.leaf (.dlrep s) : Stmt E) .none := by
  refine ⟨fun σ tv htv => ⟨Tree.freshVerifier tv, ?_, bare_dlrep_leaf s σ tv htv⟩,
    fun _ => ⟨rfl, bare_dlrep_leaf s⟩⟩
  obtain ⟨l', rfl, hl⟩ := Tree.judge_leaf_inv htv
  cases l' with
  | ext _ => simp [Judged.judge] at hl
  | dlrep l' =>
    simp [Tree.freshVerifier, Tree.process, StmtOps.process, StmtOps.freshVerifier, bind_ok, Except.map]

theorem simulate_dlrep_precommitment {s : DLRep E} {w w' : World} {d : Option (Dict Int)}
    {c : Option Int} {sim : Sim E} (h : DLRep.simulate s d c w = .ok (sim, w')) :
    sim.precommitment = .none := by
  unfold DLRep.simulate at h
  obtain ⟨d', w1, h1, h⟩ := pm_bind.mp h
  obtain ⟨c', w2, h2, h⟩ := pm_bind.mp h
  rw [pm_getStore_bind, pm_liftE_bind_iff] at h
  obtain ⟨rs, hrs, h⟩ := h
  obtain ⟨com, hcom, h⟩ := pm_liftE_bind_iff.mp h
  rw [pm_pure_iff, Prod.mk.injEq] at h
  rw [← h.1]

/-! ### From transcripts to the verdict -/

section
variable {L : Type} [StmtOps E L] [StmtView E L]

/-- The checks of a verifier that has digested the precommitment. -/
theorem checks_of {env : Env E} {σ : Store} {t1 : Tree L} {S : Skel E} {k : Core E}
    (hS : Tree.skel t1 = some S) (hk : Tree.core t1 = some k) (hr : Tree.Ready t1)
    (hval : Tree.fullValidate t1 = .ok ()) {id : PId E}
    (hid : IsId S ((secrets k).map σ.name) id) {r : Val E} {ρ : Key → Val E}
    (hρ : Agree σ k r ρ) {c : Int} {com : Val E} (hcom : Eqns k c r com) :
    checkStatement env σ t1 (env.digest id) = .ok id ∧ preVerification σ t1 r = .ok () ∧
      Tree.recompute t1 c r = .ok com := by
  have hvars : Tree.secretVars t1 = .ok (secrets k) := by
    rw [Tree.core_vars t1 k hk, secretVars_core]
  obtain ⟨d, hcons⟩ := consistency_iff.mpr ⟨ρ, hρ⟩
  refine ⟨?_, ?_, ?_⟩
  · unfold checkStatement
    rw [(proofId_iff hS hvars).mpr hid]; simp [bind_ok]
  · unfold preVerification
    rw [hval, bind_ok, Tree.core_consistency t1 k σ r [] hk hr, hcons]; rfl
  · rw [Tree.core_recompute t1 k c r hk, (recompute_iff _ _ _ _).mpr hcom]

theorem digest_of [Blank L] [Judged L] {t : Tree L} {v : Val E} (h : Digests t v) (σ : Store)
    {tv : Tree L} (htv : Tree.Judge σ tv t) :
    ∃ t1, digestPrecommitment σ (Tree.freshVerifier tv) v = .ok t1 ∧ Tree.skel t1 = Tree.skel t ∧
      Tree.core t1 = Tree.core t ∧ Tree.Ready t1 ∧ Tree.fullValidate t1 = Tree.fullValidate t := by
  unfold digestPrecommitment
  split
  · rename_i hv
    rw [isNone_iff] at hv; subst hv
    exact ⟨_, rfl, h.2 rfl σ tv htv⟩
  · exact h.1 σ tv htv

theorem digest_of_acceptsT [Blank L] [Judged L] {t : Tree L} {v : Val E} (h : AcceptsT t v) (σ : Store)
    {tv : Tree L} (htv : Tree.Judge σ tv t) :
    ∃ t1, digestPrecommitment σ (Tree.freshVerifier tv) v = .ok t1 ∧ Tree.skel t1 = Tree.skel t ∧
      Tree.core t1 = Tree.core t ∧ Tree.Ready t1 ∧ Tree.fullValidate t1 = Tree.fullValidate t :=
  digest_of h.digests σ htv

end

end Zksk
