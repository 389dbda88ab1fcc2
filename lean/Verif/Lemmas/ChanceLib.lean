import Verif.Lemmas.ChanceAsk
import Verif.Lemmas.Prim
import Verif.Lemmas.BBS
import Verif.Model.NotEqual
import Verif.Model.Range

/-! Commitments of the primitives of the library. -/

set_option linter.unusedSectionVars false

namespace Zksk.Chance

open Spec Peer

variable {E : Type} [AddCommGroup E] [DecidableEq E]

theorem stmt_not_bytes (p : LeafProver E) (o : Option (Dict Int)) (w : World) (a : Val E × LeafProver E) (w' : World)
    (h : ProverOps.internalCommit (L := Leaf E) p o w = .ok (a, w')) (b : List UInt8) : a.1 ≠ .bytes b := by
  cases p with
  | dlrep p =>
    obtain ⟨⟨v, p1⟩, w1, h1, h⟩ := pm_bind.mp h
    rw [pm_pure_iff] at h
    simp only [Prod.mk.injEq] at h
    obtain ⟨rfl, _⟩ := h
    exact core_not_bytes p o w _ _ h1 b
  | ext p =>
    obtain ⟨⟨v, p1⟩, w1, h1, h⟩ := pm_bind.mp h
    rw [pm_pure_iff] at h
    simp only [Prod.mk.injEq] at h
    obtain ⟨rfl, _⟩ := h
    cases hc : p.constructed with
    | none =>
      unfold ExtProver.internalCommit at h1
      cases hk : p.stmt.constructed with
      | none => rw [hk] at h1; exact (raise_ne.mp h1).elim
      | some k => simp only [hk, hc] at h1; exact (raise_ne.mp h1).elim
    | some cp =>
      obtain ⟨cp', h2⟩ := ext_commit_ok hc h1
      exact commit_not_bytes core_not_bytes h2 b

section runs

variable {L P : Type} [StmtOps E L] [ProverOps E L P]

/-- `PTree.commit` is the last part of `upTo`. -/
theorem commit_upTo {env : Env E} {t : Tree L} {d : Dict Int} {w w1 w2 w3 : World} {t' : Tree L} {p p1 p2 : PTree E L P}
    {v com : Val E} {h : List UInt8} (h1 : PTree.getProver t d w = .ok ((some p, t'), w1))
    (h2 : PTree.precommit p w1 = .ok ((v, p1), w2)) (h3 : PTree.commit env p1 w2 = .ok (((h, com), p2), w3)) :
    upTo P t d w = .ok ((v, com, p2), w3) := by
  unfold PTree.commit at h3
  rw [pm_getStore_bind] at h3
  obtain ⟨id, _, h3⟩ := pm_liftE_bind_iff.mp h3
  obtain ⟨⟨c, p'⟩, w4, h4, h3⟩ := pm_bind.mp h3
  rw [pm_pure_iff] at h3
  simp only [Prod.mk.injEq] at h3
  obtain ⟨⟨⟨_, rfl⟩, rfl⟩, rfl⟩ := h3
  unfold upTo
  rw [pm_bind_eq h1]
  dsimp only
  rw [pm_bind_eq h2]
  dsimp only
  rw [pm_bind_eq h4]
  rfl

end runs

theorem honestRun_upTo {env : Env E} {t : Core E} {d : Dict Int} {c : Int} {w w' : World} {u : Val E} {T : Transcript E}
    (h : honestRun env t d c w = .ok ((u, T), w')) :
    ∃ a w1, upTo (DLRepProver E) t d w = .ok (a, w1) ∧ a.2.1 = T.commitment := by
  unfold honestRun at h
  obtain ⟨⟨p?, t'⟩, w1, h1, h⟩ := pm_bind.mp h
  cases p? with
  | none => exact (raise_ne.mp h).elim
  | some p =>
    dsimp only at h
    obtain ⟨⟨v, p1⟩, w2, h2, h⟩ := pm_bind.mp h
    obtain ⟨⟨⟨hh, com⟩, p2⟩, w3, h3, h⟩ := pm_bind.mp h
    obtain ⟨r, w4, _, h⟩ := pm_bind.mp h
    rw [pm_pure_iff] at h
    simp only [Prod.mk.injEq] at h
    obtain ⟨⟨_, rfl⟩, _⟩ := h
    exact ⟨_, _, commit_upTo h1 h2 h3, rfl⟩

theorem honestRunStmt_upTo {env : Env E} {t : Stmt E} {d : Dict Int} {c : Int} {w w' : World} {u : Val E} {T : Transcript E}
    (h : honestRunStmt env t d c w = .ok ((u, T), w')) :
    ∃ a w1, upTo (LeafProver E) t d w = .ok (a, w1) ∧ a.2.1 = T.commitment := by
  unfold honestRunStmt at h
  obtain ⟨⟨p?, t'⟩, w1, h1, h⟩ := pm_bind.mp h
  cases p? with
  | none => exact (raise_ne.mp h).elim
  | some p =>
    dsimp only at h
    obtain ⟨⟨v, p1⟩, w2, h2, h⟩ := pm_bind.mp h
    obtain ⟨⟨⟨hh, com⟩, p2⟩, w3, h3, h⟩ := pm_bind.mp h
    obtain ⟨r, w4, _, h⟩ := pm_bind.mp h
    rw [pm_pure_iff] at h
    simp only [Prod.mk.injEq] at h
    obtain ⟨⟨_, rfl⟩, _⟩ := h
    exact ⟨_, _, commit_upTo h1 h2 h3, rfl⟩

/-! ### Constructed representations -/

theorem fits_rep {q M : Nat} {σ : Store} {lhs : Pt E} {vs : List Sec} {bs : List (Pt E)} {b : Bool} {s : DLRep E}
    (h : mkDLRep σ lhs vs bs b = .ok s) (hl : vs.length = bs.length) {g : Pt E} (hg : g ∈ bs)
    (ho : q ∣ g.grp.order ∧ g.grp.order ∣ M) : Fits q M s := by
  obtain ⟨rfl, _, hgrp⟩ := mkDLRep_ok h
  exact ⟨hl, fun b hb => by rw [hgrp b hb g hg]; exact ho⟩

theorem hasLeaf_and {L : Type} {l : L} {ts : List (Tree L)} {t : Tree L} (hm : mkAnd ts = .ok t) (h : HasLeaf l t) :
    ∃ u ∈ ts, HasLeaf l u := by
  unfold mkAnd at hm
  split at hm
  · cases hm
  · injection hm with hm
    subst hm
    cases h with
    | all _ _ u hu h => exact ⟨u, hu, h⟩

theorem hasLeaf_leaf {L : Type} {l l' : L} (h : HasLeaf l (.leaf l')) : l = l' := by
  cases h; rfl

theorem fresh_single {q : Nat} {name : Sec → String} {s : DLRep E} {x : Sec} {b : Pt E} (h1 : s.secretVars = [x])
    (h2 : s.bases = [b]) (h : ∀ k : Nat, 0 < k → k < q → k • b.val ≠ 0) : Fresh q name s := by
  refine ⟨0, x, b, by rw [h1]; rfl, by rw [h2]; rfl, fun j y hj _ => ?_, h⟩
  rw [h1] at hj
  cases j with
  | zero => rfl
  | succ j => simp at hj

theorem fresh_first {q : Nat} {name : Sec → String} {s : DLRep E} {x y : Sec} {b c : Pt E} (h1 : s.secretVars = [x, y])
    (h2 : s.bases = [b, c]) (hn : name x ≠ name y) (h : ∀ k : Nat, 0 < k → k < q → k • b.val ≠ 0) : Fresh q name s := by
  refine ⟨0, x, b, by rw [h1]; rfl, by rw [h2]; rfl, fun j z hj hz => ?_, h⟩
  rw [h1] at hj
  match j with
  | 0 => rfl
  | 1 => simp only [List.getElem?_cons_succ, List.getElem?_cons_zero, Option.some.injEq] at hj; subst hj; exact absurd hz.symm hn
  | j + 2 => simp at hj

/-! ### Inequality -/

theorem ne_precommit_steps (s : NotEqual E) (σ : Store) :
    Steps (fun v τ => τ.name = σ.name ∧ ∀ b, v ≠ .bytes b) (starting σ s.precommit) := by
  unfold NotEqual.precommit
  refine (Steps.draw (Q := fun _ τ => τ = σ) _ fun _ _ => rfl).bind fun b τ hτ => ?_
  subst hτ
  refine .get ?_
  cases τ.value s.x with
  | none => exact .raise
  | some x =>
    refine .set (.get (.set (.get ?_)))
    split
    · exact .raise
    · exact .lift fun p _ => .pure ⟨rfl, by simp⟩

theorem ne_fits {q M : Nat} (s : NotEqual E) (name : Sec → String) (e : Ext E) (he : e.spec = s.spec)
    (hc : e.constructed = none) (hg : q ∣ s.g.grp.order ∧ s.g.grp.order ∣ M) (hh : q ∣ s.h.grp.order ∧ s.h.grp.order ∣ M) :
    ExtFits q M name e where
  precommit := by
    rintro σ rfl
    rw [he]
    exact inTurn_steps (ne_precommit_steps s σ)
  simPrecommit := by
    rintro σ rfl
    rw [he]
    refine inTurn_steps (f := starting σ s.simPrecommit) ?_
    unfold NotEqual.simPrecommit
    exact (Steps.draw (Q := fun _ τ => τ = σ) _ fun _ _ => rfl).bind fun b τ hτ => .pure (by rw [hτ])
  construct := by
    intro σ v k _ hk l hl
    rw [he] at hk
    change s.construct σ v = _ at hk
    unfold NotEqual.construct at hk
    obtain ⟨c, _, hk⟩ := bind_ok_iff.mp hk
    obtain ⟨p1, h1, hk⟩ := bind_ok_iff.mp hk
    obtain ⟨p2, h2, hk⟩ := bind_ok_iff.mp hk
    have f1 : Fits q M p1 := fits_rep h1 rfl (List.mem_cons_self ..) hg
    have f2 : Fits q M p2 := fits_rep h2 rfl (List.mem_cons_self ..) hh
    split at hk
    · obtain ⟨p3, h3, hk⟩ := bind_ok_iff.mp hk
      have f3 : Fits q M p3 := fits_rep h3 rfl (List.mem_cons_self ..) hg
      obtain ⟨u, hu, hl⟩ := hasLeaf_and hk hl
      simp only [List.mem_cons, List.not_mem_nil, or_false] at hu
      rcases hu with rfl | rfl | rfl <;> (rw [hasLeaf_leaf hl]; assumption)
    · obtain ⟨u, hu, hl⟩ := hasLeaf_and hk hl
      simp only [List.mem_cons, List.not_mem_nil, or_false] at hu
      rcases hu with rfl | rfl <;> (rw [hasLeaf_leaf hl]; assumption)
  constructed := by intro k hk; rw [hc] at hk; cases hk

theorem and_always {L : Type} [StmtOps E L] {lv : L → Prop} {ts : List (Tree L)} {t u : Tree L} (hm : mkAnd ts = .ok t)
    (hu : u ∈ ts) (h : Always lv u) : Always lv t := by
  unfold mkAnd at hm
  split at hm
  · cases hm
  · injection hm with hm
    subst hm
    exact .all _ _ u hu h

theorem ne_fresh {q : Nat} (s : NotEqual E) (name : Sec → String) (e : Ext E) (he : e.spec = s.spec)
    (hn : name s.alpha ≠ name s.beta) (hg : ∀ k : Nat, 0 < k → k < q → k • s.g.val ≠ 0) : LeafFresh q name (.ext e) := by
  intro σ v k _ hk
  rw [he] at hk
  change s.construct σ v = _ at hk
  unfold NotEqual.construct at hk
  obtain ⟨c, _, hk⟩ := bind_ok_iff.mp hk
  obtain ⟨p1, h1, hk⟩ := bind_ok_iff.mp hk
  obtain ⟨p2, h2, hk⟩ := bind_ok_iff.mp hk
  have f1 : Fresh q name p1 := by
    obtain ⟨rfl, _⟩ := mkDLRep_ok h1
    exact fresh_first rfl rfl hn hg
  split at hk
  · obtain ⟨p3, h3, hk⟩ := bind_ok_iff.mp hk
    exact and_always hk (List.mem_cons_self ..) (.leaf _ f1)
  · exact and_always hk (List.mem_cons_self ..) (.leaf _ f1)

/-! ### Ranges -/

theorem drawRands_steps (m : Nat) : ∀ (ss : List Sec) (σ : Store),
    Steps (fun _ τ => τ.name = σ.name) (starting σ (PowerTwo.drawRands m ss))
  | [], σ => .pure rfl
  | s :: ss, σ => by
    unfold PowerTwo.drawRands
    refine (Steps.draw (Q := fun _ τ => τ = σ) _ fun _ _ => rfl).bind fun b τ hτ => ?_
    subst hτ
    exact .get (.set ((drawRands_steps m ss (τ.setValue s b)).mono fun _ _ h => h))

theorem drawMany_steps (m : Nat) : ∀ (n : Nat) (σ : Store),
    Steps (fun _ τ => τ = σ) (starting σ (PowerTwo.drawMany m n))
  | 0, σ => .pure rfl
  | n + 1, σ => by
    unfold PowerTwo.drawMany
    refine (Steps.draw (Q := fun _ τ => τ = σ) _ fun _ _ => rfl).bind fun b τ hτ => ?_
    subst hτ
    exact (drawMany_steps m n _).bind fun _ _ hτ => .pure hτ

theorem bitProof_shape {s : PowerTwo E} {σ : Store} {v : Val E} {i : Nat} {x : Sec} {bit : Option Int} {t : Core E}
    (h : s.bitProof σ v i x bit = .ok t) : ∃ p0 p1 : DLRep E, t = .or false [.leaf p0, .leaf p1] ∧
      (p0.secretVars = [x] ∧ p0.bases = [s.h]) ∧ (p1.secretVars = [x] ∧ p1.bases = [s.h]) := by
  unfold PowerTwo.bitProof at h
  obtain ⟨a, _, h⟩ := bind_ok_iff.mp h
  obtain ⟨b, _, h⟩ := bind_ok_iff.mp h
  obtain ⟨c, _, h⟩ := bind_ok_iff.mp h
  obtain ⟨p0, h0, h⟩ := bind_ok_iff.mp h
  obtain ⟨c', _, h⟩ := bind_ok_iff.mp h
  obtain ⟨p1, h1, h⟩ := bind_ok_iff.mp h
  obtain ⟨rfl, _⟩ := mkDLRep_ok h0
  obtain ⟨rfl, _⟩ := mkDLRep_ok h1
  simp only [opOr, mkOr, List.length_cons, List.length_nil] at h
  injection h with h
  subst h
  cases bit with
  | none => exact ⟨_, _, rfl, ⟨rfl, rfl⟩, ⟨rfl, rfl⟩⟩
  | some b => exact ⟨_, _, rfl, ⟨rfl, rfl⟩, ⟨rfl, rfl⟩⟩

theorem bitProofs_shape {s : PowerTwo E} {σ : Store} {v : Val E} : ∀ {xs : List Sec} {i : Nat} {bits : Option (List Int)}
    {ts : List (Core E)}, s.bitProofs σ v i xs bits = .ok ts → ∀ t ∈ ts, ∃ (x : Sec) (p0 p1 : DLRep E),
      t = .or false [.leaf p0, .leaf p1] ∧ (p0.secretVars = [x] ∧ p0.bases = [s.h]) ∧ (p1.secretVars = [x] ∧ p1.bases = [s.h])
  | [], i, bits, ts, h, t, ht => by
    simp only [PowerTwo.bitProofs, Except.ok.injEq] at h
    subst h; cases ht
  | x :: xs, i, none, ts, h, t, ht => by
    simp only [PowerTwo.bitProofs] at h
    obtain ⟨p, hp, h⟩ := bind_ok_iff.mp h
    obtain ⟨ps, hps, h⟩ := bind_ok_iff.mp h
    simp only [Except.ok.injEq] at h
    subst h
    rcases List.mem_cons.mp ht with rfl | ht
    · exact ⟨x, bitProof_shape hp⟩
    · exact bitProofs_shape hps t ht
  | x :: xs, i, some (b :: bs), ts, h, t, ht => by
    simp only [PowerTwo.bitProofs] at h
    obtain ⟨p, hp, h⟩ := bind_ok_iff.mp h
    obtain ⟨ps, hps, h⟩ := bind_ok_iff.mp h
    simp only [Except.ok.injEq] at h
    subst h
    rcases List.mem_cons.mp ht with rfl | ht
    · exact ⟨x, bitProof_shape hp⟩
    · exact bitProofs_shape hps t ht
  | x :: xs, i, some [], ts, h, t, ht => by
    simp only [PowerTwo.bitProofs] at h
    cases h

theorem range_fits {q M : Nat} (s : PowerTwo E) (name : Sec → String) (e : Ext E) (he : e.spec = s.spec)
    (hc : e.constructed = none) (hh : q ∣ s.h.grp.order ∧ s.h.grp.order ∣ M) : ExtFits q M name e where
  precommit := by
    rintro σ rfl
    rw [he]
    refine inTurn_steps (f := starting σ s.precommit) ?_
    unfold PowerTwo.precommit
    refine .get (.lift fun x _ => .lift fun bits _ => ?_)
    refine (drawRands_steps _ _ _).bind fun _ τ hτ => ?_
    exact .get (.lift fun cs _ => .lift fun vs _ => .lift fun r _ => .pure ⟨hτ, by simp⟩)
  simPrecommit := by
    rintro σ rfl
    rw [he]
    refine inTurn_steps (f := starting σ s.simPrecommit) ?_
    unfold PowerTwo.simPrecommit
    refine (drawMany_steps _ _ _).bind fun vs τ hτ => ?_
    subst hτ
    cases vs with
    | nil => exact .raise
    | cons v vs => exact .lift fun _ _ => .pure rfl
  construct := by
    intro σ v k _ hk l hl
    rw [he] at hk
    change s.construct σ v = _ at hk
    unfold PowerTwo.construct at hk
    obtain ⟨bits, _, hk⟩ := bind_ok_iff.mp hk
    obtain ⟨ps, hps, hk⟩ := bind_ok_iff.mp hk
    obtain ⟨u, hu, hl⟩ := hasLeaf_and hk hl
    obtain ⟨x, p0, p1, rfl, ⟨a0, b0⟩, ⟨a1, b1⟩⟩ := bitProofs_shape hps u hu
    have f : ∀ p : DLRep E, p.secretVars = [x] → p.bases = [s.h] → Fits q M p := by
      intro p h1 h2
      refine ⟨by rw [h1, h2]; rfl, fun b hb => ?_⟩
      rw [h2] at hb
      rw [List.mem_singleton.mp hb]; exact hh
    cases hl with
    | any _ _ u hu hl =>
      simp only [List.mem_cons, List.not_mem_nil, or_false] at hu
      rcases hu with rfl | rfl
      · rw [hasLeaf_leaf hl]; exact f _ a0 b0
      · rw [hasLeaf_leaf hl]; exact f _ a1 b1
  constructed := by intro k hk; rw [hc] at hk; cases hk

theorem range_fresh {q : Nat} (s : PowerTwo E) (name : Sec → String) (e : Ext E) (he : e.spec = s.spec)
    (hh : ∀ k : Nat, 0 < k → k < q → k • s.h.val ≠ 0) : LeafFresh q name (.ext e) := by
  intro σ v k _ hk
  rw [he] at hk
  change s.construct σ v = _ at hk
  unfold PowerTwo.construct at hk
  obtain ⟨bits, _, hk⟩ := bind_ok_iff.mp hk
  obtain ⟨ps, hps, hk⟩ := bind_ok_iff.mp hk
  cases ps with
  | nil => simp [mkAnd] at hk
  | cons u ps =>
    obtain ⟨x, p0, p1, rfl, ⟨a0, b0⟩, ⟨a1, b1⟩⟩ := bitProofs_shape hps u (List.mem_cons_self ..)
    refine and_always hk (List.mem_cons_self ..) (.any _ _ fun t ht _ => ?_)
    simp only [List.mem_cons, List.not_mem_nil, or_false] at ht
    rcases ht with rfl | rfl
    · exact .leaf _ (fresh_single a0 b0 hh)
    · exact .leaf _ (fresh_single a1 b1 hh)

/-! ### Signatures -/

theorem listAt_ok {α : Type} {l : List α} {i : Nat} {a : α} (h : listAt l i = .ok a) : l[i]? = some a := by
  unfold listAt at h
  split at h
  · rename_i b hb
    injection h with h
    rw [hb, h]
  · cases h

theorem bbs_fits {q M : Nat} (s : BBS E) (gen : E) (name : Sec → String) (e : Ext E) (he : e.spec = s.spec gen)
    (hc : e.constructed = none) (hk : ∀ g ∈ s.pk.generators, g.grp = s.P.G1) (ho : q ∣ s.P.order ∧ s.P.order ∣ M) :
    ExtFits q M name e where
  precommit := by
    rintro σ rfl
    rw [he]
    refine inTurn_steps (f := starting σ s.precommit) ?_
    unfold BBS.precommit
    cases s.signature with
    | none => exact .raise
    | some sig =>
      refine .lift fun b0 _ => ?_
      refine (Steps.draw (Q := fun _ τ => τ = σ) _ fun _ _ => rfl).bind fun r1 τ hτ => ?_
      subst hτ
      refine (Steps.draw (Q := fun _ τ' => τ' = τ) _ fun _ _ => rfl).bind fun r2 τ' hτ => ?_
      subst hτ
      exact .get (.set (.lift fun _ _ => .lift fun _ _ => .lift fun _ _ => .lift fun _ _ => .pure ⟨rfl, by simp⟩))
  simPrecommit := by
    rintro σ rfl
    rw [he]
    refine inTurn_steps (f := starting σ (s.simPrecommit gen)) ?_
    unfold BBS.simPrecommit
    refine .lift fun b0 _ => ?_
    refine (Steps.draw (Q := fun _ τ => τ = σ) _ fun _ _ => rfl).bind fun r1 τ hτ => ?_
    subst hτ
    refine (Steps.draw (Q := fun _ τ' => τ' = τ) _ fun _ _ => rfl).bind fun r2 τ' hτ => ?_
    subst hτ
    exact .pure rfl
  construct := by
    intro σ v k _ hk' l hl
    rw [he] at hk'
    change s.construct σ v = _ at hk'
    unfold BBS.construct at hk'
    obtain ⟨_, _, hk'⟩ := bind_ok_iff.mp hk'
    obtain ⟨a1, _, hk'⟩ := bind_ok_iff.mp hk'
    obtain ⟨_, _, hk'⟩ := bind_ok_iff.mp hk'
    obtain ⟨a2, _, hk'⟩ := bind_ok_iff.mp hk'
    obtain ⟨g0, _, hk'⟩ := bind_ok_iff.mp hk'
    obtain ⟨g1, hg1, hk'⟩ := bind_ok_iff.mp hk'
    obtain ⟨g2, _, hk'⟩ := bind_ok_iff.mp hk'
    obtain ⟨dl1, h1, hk'⟩ := bind_ok_iff.mp hk'
    obtain ⟨x, _, hk'⟩ := bind_ok_iff.mp hk'
    obtain ⟨dl2, h2, hk'⟩ := bind_ok_iff.mp hk'
    obtain ⟨aw, _, hk'⟩ := bind_ok_iff.mp hk'
    obtain ⟨p0, _, hk'⟩ := bind_ok_iff.mp hk'
    obtain ⟨lhs, _, hk'⟩ := bind_ok_iff.mp hk'
    obtain ⟨ah, hah, hk'⟩ := bind_ok_iff.mp hk'
    obtain ⟨gw, _, hk'⟩ := bind_ok_iff.mp hk'
    obtain ⟨p2, _, hk'⟩ := bind_ok_iff.mp hk'
    obtain ⟨dl3, h3, hk'⟩ := bind_ok_iff.mp hk'
    have hG : g1.grp.order = s.P.order := by
      rw [hk g1 (List.mem_of_mem_take (List.mem_of_getElem? (listAt_ok hg1)))]; rfl
    have hG' : q ∣ g1.grp.order ∧ g1.grp.order ∣ M := by rw [hG]; exact ho
    have f1 : Fits q M dl1 := fits_rep h1 rfl (List.mem_cons_self ..) hG'
    have f2 : Fits q M dl2 := fits_rep h2 rfl (List.mem_cons_self ..) hG'
    have hT : ah.grp = s.P.GT := by
      unfold Pairing.pair at hah
      split at hah
      · split at hah
        · injection hah with hah; rw [← hah]
        · cases hah
      · cases hah
    have f3 : Fits q M dl3 := by
      obtain ⟨rfl, hlen, _, hgrp⟩ := repOf_ok h3
      refine ⟨hlen, fun b hb => ?_⟩
      have := hgrp b hb (Pt.smul (-1) ah) (by simp)
      rw [this]
      have e : (Pt.smul (-1) ah).grp = s.P.GT := hT
      rw [e]; exact ho
    obtain ⟨u, hu, hl⟩ := hasLeaf_and hk' hl
    simp only [List.mem_cons, List.not_mem_nil, or_false] at hu
    rcases hu with rfl | rfl | rfl <;> (rw [hasLeaf_leaf hl]; assumption)
  constructed := by intro k hk; rw [hc] at hk; cases hk

theorem bbs_fresh {q : Nat} (s : BBS E) (gen : E) (name : Sec → String) (e : Ext E) (he : e.spec = s.spec gen)
    (hn : name s.r1 ≠ name s.r2) (hg : ∀ g, s.pk.generators[1]? = some g → ∀ k : Nat, 0 < k → k < q → k • g.val ≠ 0) :
    LeafFresh q name (.ext e) := by
  intro σ v k _ hk'
  rw [he] at hk'
  change s.construct σ v = _ at hk'
  unfold BBS.construct at hk'
  obtain ⟨_, _, hk'⟩ := bind_ok_iff.mp hk'
  obtain ⟨a1, _, hk'⟩ := bind_ok_iff.mp hk'
  obtain ⟨_, _, hk'⟩ := bind_ok_iff.mp hk'
  obtain ⟨a2, _, hk'⟩ := bind_ok_iff.mp hk'
  obtain ⟨g0, _, hk'⟩ := bind_ok_iff.mp hk'
  obtain ⟨g1, hg1, hk'⟩ := bind_ok_iff.mp hk'
  obtain ⟨g2, _, hk'⟩ := bind_ok_iff.mp hk'
  obtain ⟨dl1, h1, hk'⟩ := bind_ok_iff.mp hk'
  obtain ⟨x, _, hk'⟩ := bind_ok_iff.mp hk'
  obtain ⟨dl2, h2, hk'⟩ := bind_ok_iff.mp hk'
  obtain ⟨aw, _, hk'⟩ := bind_ok_iff.mp hk'
  obtain ⟨p0, _, hk'⟩ := bind_ok_iff.mp hk'
  obtain ⟨lhs, _, hk'⟩ := bind_ok_iff.mp hk'
  obtain ⟨ah, hah, hk'⟩ := bind_ok_iff.mp hk'
  obtain ⟨gw, _, hk'⟩ := bind_ok_iff.mp hk'
  obtain ⟨p2, _, hk'⟩ := bind_ok_iff.mp hk'
  obtain ⟨dl3, h3, hk'⟩ := bind_ok_iff.mp hk'
  have f1 : Fresh q name dl1 := by
    obtain ⟨rfl, _⟩ := mkDLRep_ok h1
    refine fresh_first rfl rfl hn (hg g1 ?_)
    have := listAt_ok hg1
    unfold BBS.bases at this
    rw [List.getElem?_take] at this
    split at this
    · exact this
    · cases this
  exact and_always hk' (List.mem_cons_self ..) (.leaf _ f1)

end Zksk.Chance
