import Verif.Lemmas.Accept
import Verif.Lemmas.Sound
import Verif.Model.NotEqual
import Verif.Model.Range

/-! Lemmas shared by the concrete primitives. -/

set_option linter.unusedSectionVars false

namespace Zksk

open Spec

variable {E : Type} [AddCommGroup E] [DecidableEq E]

theorem mkDLRep_ok {σ : Store} {lhs : Pt E} {vs : List Sec} {bs : List (Pt E)} {b : Bool} {s : DLRep E}
    (h : mkDLRep σ lhs vs bs b = .ok s) :
    s = ⟨lhs, bs, vs, knownValues σ vs [], b⟩ ∧ bs ≠ [] ∧ ∀ p ∈ bs, ∀ q ∈ bs, p.grp = q.grp := by
  unfold mkDLRep at h
  cases bs with
  | nil => cases h
  | cons b0 bs =>
    simp only at h
    split at h
    · cases h
    · rename_i hb
      injection h with h
      refine ⟨h.symm, by simp, ?_⟩
      have : ∀ p ∈ b0 :: bs, p.grp = b0.grp := by
        intro p hp
        by_contra hne
        exact hb (List.any_eq_true.mpr ⟨p, hp, by simpa using hne⟩)
      intro p hp q hq
      rw [this p hp, this q hq]

theorem mkDLRep_of {σ : Store} {lhs : Pt E} {vs : List Sec} {bs : List (Pt E)} {b : Bool} {g : Grp}
    (hb : bs ≠ []) (hg : ∀ p ∈ bs, p.grp = g) :
    mkDLRep σ lhs vs bs b = .ok ⟨lhs, bs, vs, knownValues σ vs [], b⟩ := by
  unfold mkDLRep
  cases bs with
  | nil => exact absurd rfl hb
  | cons b0 bs =>
    simp only
    rw [if_neg]
    intro h
    obtain ⟨p, hp, h⟩ := List.any_eq_true.mp h
    rw [hg p hp, hg b0 (by simp)] at h
    simp at h

theorem mkAnd_ok {L : Type} {subs : List (Tree L)} {t : Tree L} (h : mkAnd subs = .ok t) :
    t = .and false subs ∧ 2 ≤ subs.length := by
  unfold mkAnd at h
  split at h
  · cases h
  · injection h with h
    exact ⟨h.symm, by omega⟩

/-- Interactive verification of a general statement is that of the plain statement it stands for. -/
theorem verifyResponse_stmt {σ : Store} {t t1 : Stmt E} {v com r : Val E} {c : Int}
    (h : digestPrecommitment σ (Tree.freshVerifier t) v = .ok t1)
    (h1 : verifyResponse σ t1 com c r = .ok true) :
    ∃ S k, DigestedTop σ t v S k ∧
      ∀ com c r, verifyResponse σ t1 com c r = verifyResponse σ k com c r := by
  unfold verifyResponse preVerification at h1
  obtain ⟨_, h2, _⟩ := bind_ok_iff.mp h1
  obtain ⟨_, hval, h2⟩ := bind_ok_iff.mp h2
  obtain ⟨⟨b, d⟩, hc, h2⟩ := bind_ok_iff.mp h2
  cases b with
  | false => simp at h2
  | true =>
    obtain ⟨S, k, hd, hview⟩ := digestedTop_iff h hval (hasVer_of_consistency σ t1 _ _ _ hc)
    refine ⟨S, k, hd, fun com c r => ?_⟩
    unfold verifyResponse preVerification
    rw [hval, validate_core, hview.consistency, hview.recompute]

/-- A statement that is one extended object. -/
theorem digestedTop_ext {σ : Store} {s : Ext E} {v : Val E} {S : Skel E} {k : Core E}
    (h : DigestedTop σ (.leaf (.ext s)) v S k) :
    v ≠ .none ∧ s.spec.construct σ v = .ok k ∧ s.spec.validate v = .ok () := by
  rcases h with ⟨_, h, _⟩ | ⟨hv, h⟩
  · cases k <;> simp [embed] at h
  · refine ⟨hv, ?_⟩
    generalize ht : (Tree.leaf (Leaf.ext s) : Stmt E) = t at h
    cases h with
    | bare k => cases k <;> simp [embed] at ht
    | rep s' => simp at ht
    | ext s' v t hc hval =>
      simp only [Tree.leaf.injEq, Leaf.ext.injEq] at ht
      subst ht
      exact ⟨hc, hval⟩
    | all => simp at ht
    | any => simp at ht

theorem digested_ext {σ : Store} {s : Ext E} {v : Val E} {S : Skel E} {k : Core E}
    (h : Digested σ (.leaf (.ext s)) v S k) :
    s.spec.construct σ v = .ok k ∧ s.spec.validate v = .ok () := by
  generalize ht : (Tree.leaf (Leaf.ext s) : Stmt E) = t at h
  cases h with
  | bare k => cases k <;> simp [embed] at ht
  | rep s' => simp at ht
  | ext s' v t hc hval =>
    simp only [Tree.leaf.injEq, Leaf.ext.injEq] at ht
    subst ht
    exact ⟨hc, hval⟩
  | all => simp at ht
  | any => simp at ht

theorem digested_rep {σ : Store} {s : DLRep E} {v : Val E} {S : Skel E} {k : Core E}
    (h : Digested σ (.leaf (.dlrep s)) v S k) :
    k = .leaf s ∧ S = .rep s.lhs s.bases s.secretVars.length := by
  generalize ht : (Tree.leaf (Leaf.dlrep s) : Stmt E) = t at h
  cases h with
  | bare k =>
    cases k with
    | leaf s' =>
      simp only [embed, Tree.leaf.injEq, Leaf.dlrep.injEq] at ht
      subst ht
      exact ⟨rfl, rfl⟩
    | and => simp [embed] at ht
    | or => simp [embed] at ht
  | rep s' =>
    simp only [Tree.leaf.injEq, Leaf.dlrep.injEq] at ht
    subst ht
    exact ⟨rfl, rfl⟩
  | ext s' v t hc hval => simp at ht
  | all => simp at ht
  | any => simp at ht

theorem embed_ext {e : Ext E} {k : Core E} : embed k ≠ .leaf (.ext e) := by
  cases k <;> simp [embed]

theorem mem_embedL {t : Stmt E} : ∀ {ks : List (Core E)}, t ∈ embedL ks → ∃ k, t = embed k
  | [], h => by simp [embedL] at h
  | k :: ks, h => by
    simp only [embedL, List.mem_cons] at h
    rcases h with rfl | h
    · exact ⟨k, rfl⟩
    · exact mem_embedL h

/-- A conjunction with an extended statement among its members. -/
theorem digestedTop_and {σ : Store} {b : Bool} {subs : List (Stmt E)} {e : Ext E} {v : Val E} {S : Skel E}
    {k : Core E} (h : DigestedTop σ (.and b subs) v S k) (he : .leaf (.ext e) ∈ subs) :
    ∃ (vi : Nat → Val E) (Ss : List (Skel E)) (ks : List (Core E)), Ss.length = subs.length ∧
      ks.length = subs.length ∧ (∀ i, i < subs.length → v.index i = .ok (vi i)) ∧ k = .and b ks ∧
      S = .all Ss ∧ ∀ i t S k, subs[i]? = some t → Ss[i]? = some S → ks[i]? = some k → Digested σ t (vi i) S k := by
  have hno : ∀ k : Core E, embed k ≠ .and b subs := by
    intro k hk
    cases k with
    | leaf => simp [embed] at hk
    | or => simp [embed] at hk
    | and b' ks =>
      simp only [embed, Tree.and.injEq] at hk
      rw [← hk.2] at he
      obtain ⟨k, hk⟩ := mem_embedL he
      exact embed_ext hk.symm
  rcases h with ⟨_, h, _⟩ | ⟨hv, h⟩
  · exact absurd h.symm (hno k)
  · generalize ht : (Tree.and b subs : Stmt E) = t at h
    cases h with
    | bare k => exact absurd ht.symm (hno k)
    | rep s' => simp at ht
    | ext s' v t hc hval => simp at ht
    | all b' subs' v vi Ss ks hv hS hk hvi h =>
      simp only [Tree.and.injEq] at ht
      obtain ⟨rfl, rfl⟩ := ht
      exact ⟨vi, Ss, ks, hS, hk, hvi, rfl, rfl, h⟩
    | any => simp at ht

end Zksk
