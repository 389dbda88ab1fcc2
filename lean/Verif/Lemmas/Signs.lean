import Verif.SpecLeak
import Verif.Lemmas.Leak
import Verif.Lemmas.Frame
import Verif.Lemmas.RangeRun
import Verif.Lemmas.PowerTwoRun

/-! The sub-challenges of all disjunctions of an honest proof. -/

set_option linter.unusedSectionVars false

namespace Zksk

open Spec

variable {E : Type} [AddCommGroup E] [DecidableEq E]

section
variable {L P : Type} [StmtOps E L] [ProverOps E L P]

/-- The prover `p` belongs to the statement `t`, `M` relating the leaves; the simulated sub-challenges are
drawn numbers. -/
inductive Marked (M : L → P → Prop) : Tree L → PTree E L P → Prop
  | leaf (l : L) (p : P) (h : M l p) : Marked M (.leaf l) (.leaf p)
  | all (b b' : Bool) (subs : List (Tree L)) (ps : List (PTree E L P)) (hl : ps.length = subs.length)
      (h : ∀ (i : Nat) t p, subs[i]? = some t → ps[i]? = some p → Marked M t p) :
      Marked M (.and b subs) (.and b' ps)
  | any (b b' : Bool) (subs stmts : List (Tree L)) (i : Nat) (t : Tree L) (p : PTree E L P) (sims : List (Sim E))
      (ht : subs[i]? = some t) (hu : t.simulated = false) (h1 : stmts.length = subs.length)
      (h2 : sims.length + 1 = subs.length) (h3 : ∀ s ∈ sims, Drawn s.challenge) (h : Marked M t p) :
      Marked M (.or b subs) (.or b' i stmts p sims)

theorem signs_residual {sims : List Int} {i : Nat} {c : Int} {cs : List Int} (hi : i ≤ sims.length)
    (hd : ∀ x ∈ sims, Drawn x)
    (h : PTree.orSlots (sims.length + 1) i (findResidualChallenge sims c challengeLength) sims = .ok cs) :
    OrSigns (sims.length + 1) i c cs ∧
      cs[i]? = some (findResidualChallenge sims c challengeLength) := by
  have hres := Props.C02_residual_closes sims c challengeLength
  generalize findResidualChallenge sims c challengeLength = res at *
  rw [orSlots_eq _ _ _ hi] at h
  have hcs := Except.ok.inj h
  have hself : cs[i]? = some res := by
    rw [← hcs, List.getElem?_insertIdx_self, if_pos (by omega)]
  refine ⟨⟨?_, by omega, ?_, ?_, ?_⟩, hself⟩
  · rw [← hcs, List.length_insertIdx_of_le_length (by omega)]
  · rw [← hcs, sum_insertIdx _ _ _ (by omega), Int.add_comm]
    exact hres.1
  · intro x hx
    rw [hself] at hx
    cases hx
    exact hres.2
  · intro j x hx hj
    rw [← hcs] at hx
    rcases Nat.lt_or_gt_of_ne hj with hlt | hgt
    · rw [List.getElem?_insertIdx_of_lt hlt] at hx
      exact hd x (List.mem_of_getElem? hx)
    · rw [List.getElem?_insertIdx_of_gt hgt] at hx
      exact hd x (List.mem_of_getElem? hx)

theorem respond_signed {M : L → P → Prop} {R : L → Int → Val E → Prop}
    (hR : ∀ l p c r w w', M l p → ProverOps.computeResponse p c w = .ok (r, w') → R l c r) :
    ∀ (t : Tree L) (p : PTree E L P) (c : Int) (r : Val E) (w w' : World), Marked M t p →
      PTree.computeResponse p c w = .ok (r, w') → Signed R t c r := by
  intro t
  induction t using Tree.ind with
  | leaf l =>
    intro p c r w w' hm h
    cases hm with
    | leaf _ p hM =>
      simp only [PTree.computeResponse] at h
      exact .leaf _ _ _ (hR _ _ _ _ _ _ hM h)
  | and b ts ih =>
    intro p c r w w' hm h
    cases hm with
    | all _ b' _ ps hl hM =>
      simp only [PTree.computeResponse] at h
      obtain ⟨rs, w1, h1, h⟩ := pm_bind.mp h
      rw [pm_pure_iff, Prod.mk.injEq] at h
      rw [← h.1]
      have loop : ∀ (ts : List (Tree L)) (ps : List (PTree E L P)) (rs : List (Val E)) (w w' : World),
          (∀ t ∈ ts, ∀ (p : PTree E L P) (c : Int) (r : Val E) (w w' : World), Marked M t p →
            PTree.computeResponse p c w = .ok (r, w') → Signed R t c r) →
          ps.length = ts.length →
          (∀ (i : Nat) t p, ts[i]? = some t → ps[i]? = some p → Marked M t p) →
          PTree.computeResponseL ps c w = .ok (rs, w') → rs.length = ts.length ∧
          ∀ (i : Nat) t r, ts[i]? = some t → rs[i]? = some r → Signed R t c r := by
        intro ts
        induction ts with
        | nil =>
          intro ps rs w w' _ hl _ h
          have : ps = [] := List.length_eq_zero_iff.mp hl
          subst this
          simp only [PTree.computeResponseL, pm_pure_iff, Prod.mk.injEq] at h
          rw [← h.1]
          simp
        | cons t ts iht =>
          intro ps rs w w' ih hl hM h
          cases ps with
          | nil => simp at hl
          | cons p ps =>
            simp only [PTree.computeResponseL] at h
            obtain ⟨r, w2, h2, h⟩ := pm_bind.mp h
            obtain ⟨rs1, w3, h3, h⟩ := pm_bind.mp h
            rw [pm_pure_iff, Prod.mk.injEq] at h
            rw [← h.1]
            obtain ⟨e1, e2⟩ := iht ps rs1 _ _ (fun t ht => ih t (by simp [ht])) (by simpa using hl)
              (fun i t p ht hp => hM (i + 1) t p (by simpa using ht) (by simpa using hp)) h3
            refine ⟨by simp [e1], fun i u r' hu hr => ?_⟩
            cases i with
            | zero =>
              simp only [List.getElem?_cons_zero, Option.some.injEq] at hu hr
              subst hu hr
              exact ih _ (by simp) p c _ _ _ (hM 0 _ _ rfl rfl) h2
            | succ i => exact e2 i u r' (by simpa using hu) (by simpa using hr)
      obtain ⟨e1, e2⟩ := loop ts ps rs _ _ ih hl hM h1
      exact .all _ _ _ _ e1 e2
  | or b ts ih =>
    intro p c r w w' hm h
    cases hm with
    | any _ b' _ stmts i t p sims ht hu h1 h2 h3 hM =>
      simp only [PTree.computeResponse] at h
      obtain ⟨r0, w1, k1, h⟩ := pm_bind.mp h
      rw [pm_liftE_bind_iff] at h
      obtain ⟨cs, k2, h⟩ := h
      rw [pm_liftE_bind_iff] at h
      obtain ⟨rs, k3, h⟩ := h
      rw [pm_pure_iff, Prod.mk.injEq] at h
      rw [← h.1]
      have hi : i < ts.length := (List.getElem?_eq_some_iff.mp ht).1
      have hd : ∀ x ∈ sims.map Sim.challenge, Drawn x := by
        intro y hy
        obtain ⟨s, hs, rfl⟩ := List.mem_map.mp hy
        exact h3 s hs
      have hlc : (sims.map Sim.challenge).length + 1 = ts.length := by simpa using h2
      have hlr : (sims.map Sim.responses).length + 1 = ts.length := by simpa using h2
      rw [h1, ← hlc] at k2
      obtain ⟨hs, hself⟩ := signs_residual (by omega) hd k2
      rw [hlc] at hs
      rw [h1, ← hlr, orSlots_eq _ _ _ (by omega)] at k3
      have hrs := Except.ok.inj k3
      refine .any _ _ _ _ _ i t ht hu hs (by rw [← hrs, List.length_insertIdx_of_le_length (by omega)]; omega) ?_
      intro x r' hx hr'
      rw [hself] at hx
      cases hx
      rw [← hrs, List.getElem?_insertIdx_self, if_pos (by omega)] at hr'
      cases hr'
      exact ih t (List.mem_of_getElem? ht) p _ _ _ _ hM k1

theorem commit_marked {M : L → P → Prop}
    (hM : ∀ l p d v p' w w', M l p → ProverOps.internalCommit p d w = .ok ((v, p'), w') → M l p') :
    ∀ (t : Tree L) (p p' : PTree E L P) (d : Option (Dict Int)) (v : Val E) (w w' : World), Marked M t p →
      PTree.internalCommit p d w = .ok ((v, p'), w') → Marked M t p' := by
  intro t
  induction t using Tree.ind with
  | leaf l =>
    intro p p' d v w w' hm h
    cases hm with
    | leaf _ p hp =>
      simp only [PTree.internalCommit] at h
      obtain ⟨⟨v1, p1⟩, w1, h1, h⟩ := pm_bind.mp h
      rw [pm_pure_iff, Prod.mk.injEq, Prod.mk.injEq] at h
      rw [← h.1.2]
      exact .leaf _ _ (hM _ _ _ _ _ _ _ hp h1)
  | and b ts ih =>
    intro p p' d v w w' hm h
    cases hm with
    | all _ b' _ ps hl hp =>
      simp only [PTree.internalCommit] at h
      rw [pm_getStore_bind, pm_liftE_bind_iff] at h
      obtain ⟨_, _, h⟩ := h
      obtain ⟨d1, w0, _, h⟩ := pm_bind.mp h
      obtain ⟨⟨vs, ps1⟩, w1, h1, h⟩ := pm_bind.mp h
      rw [pm_pure_iff, Prod.mk.injEq, Prod.mk.injEq] at h
      rw [← h.1.2]
      have loop : ∀ (ts : List (Tree L)) (ps ps' : List (PTree E L P)) (vs : List (Val E)) (w w' : World),
          (∀ t ∈ ts, ∀ (p p' : PTree E L P) (d : Option (Dict Int)) (v : Val E) (w w' : World), Marked M t p →
            PTree.internalCommit p d w = .ok ((v, p'), w') → Marked M t p') →
          ps.length = ts.length →
          (∀ (i : Nat) t p, ts[i]? = some t → ps[i]? = some p → Marked M t p) →
          PTree.internalCommitL ps d1 w = .ok ((vs, ps'), w') → ps'.length = ts.length ∧
          ∀ (i : Nat) t p, ts[i]? = some t → ps'[i]? = some p → Marked M t p := by
        intro ts
        induction ts with
        | nil =>
          intro ps ps' vs w w' _ hl _ h
          have : ps = [] := List.length_eq_zero_iff.mp hl
          subst this
          simp only [PTree.internalCommitL, pm_pure_iff, Prod.mk.injEq] at h
          rw [← h.1.2]
          simp
        | cons t ts iht =>
          intro ps ps' vs w w' ih hl hp h
          cases ps with
          | nil => simp at hl
          | cons p ps =>
            simp only [PTree.internalCommitL] at h
            obtain ⟨⟨v1, q1⟩, w2, h2, h⟩ := pm_bind.mp h
            obtain ⟨⟨vs1, qs1⟩, w3, h3, h⟩ := pm_bind.mp h
            rw [pm_pure_iff, Prod.mk.injEq, Prod.mk.injEq] at h
            rw [← h.1.2]
            obtain ⟨e1, e2⟩ := iht ps qs1 vs1 _ _ (fun t ht => ih t (by simp [ht])) (by simpa using hl)
              (fun i t p ht hp' => hp (i + 1) t p (by simpa using ht) (by simpa using hp')) h3
            refine ⟨by simp [e1], fun i u r' hu hr => ?_⟩
            cases i with
            | zero =>
              simp only [List.getElem?_cons_zero, Option.some.injEq] at hu hr
              subst hu hr
              exact ih _ (by simp) p _ _ _ _ _ (hp 0 _ _ rfl rfl) h2
            | succ i => exact e2 i u r' (by simpa using hu) (by simpa using hr)
      obtain ⟨e1, e2⟩ := loop ts ps ps1 vs _ _ ih hl hp h1
      exact .all _ _ _ _ e1 e2
  | or b ts ih =>
    intro p p' d v w w' hm h
    cases hm with
    | any _ b' _ stmts i t p sims ht hu h1 h2 h3 hp =>
      simp only [PTree.internalCommit] at h
      rw [pm_getStore_bind, pm_liftE_bind_iff] at h
      obtain ⟨_, _, h⟩ := h
      obtain ⟨⟨v1, sub1⟩, w1, k1, h⟩ := pm_bind.mp h
      simp only at h
      rw [pm_liftE_bind_iff] at h
      obtain ⟨vs, _, h⟩ := h
      rw [pm_pure_iff, Prod.mk.injEq, Prod.mk.injEq] at h
      rw [← h.1.2]
      exact .any _ _ _ _ i t _ _ ht hu h1 h2 h3 (ih t (List.mem_of_getElem? ht) _ _ _ _ _ _ hp k1)

theorem precommit_marked {J : Store → Prop} {M M' : L → P → Prop}
    (hM : ∀ l p v p' w w', M l p → J w.store → ProverOps.precommit p w = .ok ((v, p'), w') →
      M' l p' ∧ J w'.store) :
    ∀ (t : Tree L) (p p' : PTree E L P) (v : Val E) (w w' : World), Marked M t p → J w.store →
      PTree.precommit p w = .ok ((v, p'), w') → Marked M' t p' ∧ J w'.store := by
  intro t
  induction t using Tree.ind with
  | leaf l =>
    intro p p' v w w' hm hw h
    cases hm with
    | leaf _ p hp =>
      simp only [PTree.precommit] at h
      obtain ⟨⟨v1, p1⟩, w1, h1, h⟩ := pm_bind.mp h
      rw [pm_pure_iff, Prod.mk.injEq, Prod.mk.injEq] at h
      rw [← h.1.2, ← h.2]
      obtain ⟨e1, e2⟩ := hM _ _ _ _ _ _ hp hw h1
      exact ⟨.leaf _ _ e1, e2⟩
  | and b ts ih =>
    intro p p' v w w' hm hw h
    cases hm with
    | all _ b' _ ps hl hp =>
      simp only [PTree.precommit] at h
      obtain ⟨⟨vs, ps1⟩, w1, h1, h⟩ := pm_bind.mp h
      rw [pm_pure_iff, Prod.mk.injEq, Prod.mk.injEq] at h
      rw [← h.1.2, ← h.2]
      have loop : ∀ (ts : List (Tree L)) (ps ps' : List (PTree E L P)) (vs : List (Val E)) (w w' : World),
          (∀ t ∈ ts, ∀ (p p' : PTree E L P) (v : Val E) (w w' : World), Marked M t p → J w.store →
            PTree.precommit p w = .ok ((v, p'), w') → Marked M' t p' ∧ J w'.store) →
          ps.length = ts.length →
          (∀ (i : Nat) t p, ts[i]? = some t → ps[i]? = some p → Marked M t p) → J w.store →
          PTree.precommitL ps w = .ok ((vs, ps'), w') → (ps'.length = ts.length ∧
          ∀ (i : Nat) t p, ts[i]? = some t → ps'[i]? = some p → Marked M' t p) ∧ J w'.store := by
        intro ts
        induction ts with
        | nil =>
          intro ps ps' vs w w' _ hl _ hw h
          have : ps = [] := List.length_eq_zero_iff.mp hl
          subst this
          simp only [PTree.precommitL, pm_pure_iff, Prod.mk.injEq] at h
          rw [← h.1.2, ← h.2]
          exact ⟨by simp, hw⟩
        | cons t ts iht =>
          intro ps ps' vs w w' ih hl hp hw h
          cases ps with
          | nil => simp at hl
          | cons p ps =>
            simp only [PTree.precommitL] at h
            obtain ⟨⟨v1, q1⟩, w2, h2, h⟩ := pm_bind.mp h
            obtain ⟨⟨vs1, qs1⟩, w3, h3, h⟩ := pm_bind.mp h
            rw [pm_pure_iff, Prod.mk.injEq, Prod.mk.injEq] at h
            rw [← h.1.2, ← h.2]
            obtain ⟨f1, f2⟩ := ih t (by simp) p _ _ _ _ (hp 0 _ _ rfl rfl) hw h2
            obtain ⟨⟨e1, e2⟩, e3⟩ := iht ps qs1 vs1 _ _ (fun t ht => ih t (by simp [ht])) (by simpa using hl)
              (fun i t p ht hp' => hp (i + 1) t p (by simpa using ht) (by simpa using hp')) f2 h3
            refine ⟨⟨by simp [e1], fun i u r' hu hr => ?_⟩, e3⟩
            cases i with
            | zero =>
              simp only [List.getElem?_cons_zero, Option.some.injEq] at hu hr
              subst hu hr
              exact f1
            | succ i => exact e2 i u r' (by simpa using hu) (by simpa using hr)
      obtain ⟨⟨e1, e2⟩, e3⟩ := loop ts ps ps1 vs _ _ ih hl hp hw h1
      exact ⟨.all _ _ _ _ e1 e2, e3⟩
  | or b ts ih =>
    intro p p' v w w' hm hw h
    cases hm with
    | any _ b' _ stmts i t p sims ht hu h1 h2 h3 hp =>
      simp only [PTree.precommit] at h
      obtain ⟨⟨v1, sub1⟩, w1, k1, h⟩ := pm_bind.mp h
      simp only at h
      rw [pm_liftE_bind_iff] at h
      obtain ⟨vs, _, h⟩ := h
      rw [pm_pure_iff, Prod.mk.injEq, Prod.mk.injEq] at h
      rw [← h.1.2, ← h.2]
      obtain ⟨e1, e2⟩ := ih t (List.mem_of_getElem? ht) _ _ _ _ _ hp hw k1
      exact ⟨.any _ _ _ _ i t _ _ ht hu h1 h2 h3 e1, e2⟩

theorem marked_mono {M M' : L → P → Prop} (h : ∀ l p, M l p → M' l p) : ∀ (t : Tree L) (p : PTree E L P),
    Marked M t p → Marked M' t p := by
  intro t p hm
  induction hm with
  | leaf l p hM => exact .leaf _ _ (h _ _ hM)
  | all b b' subs ps hl _ ih => exact .all _ _ _ _ hl ih
  | any b b' subs stmts i t p sims ht hu h1 h2 h3 _ ih => exact .any _ _ _ _ _ _ _ _ ht hu h1 h2 h3 ih

theorem every_marked {M : L → P → Prop} {G : L → Prop} {t : Tree L} {p : PTree E L P} (hG : Every G t)
    (hm : Marked M t p) : Marked (fun l p => G l ∧ M l p) t p := by
  induction hm with
  | leaf l p hM => exact .leaf _ _ ⟨hG _ .leaf, hM⟩
  | all b b' subs ps hl _ ih =>
    exact .all _ _ _ _ hl fun i t p ht hp =>
      ih i t p ht hp fun l hl => hG l (.all _ _ t (List.mem_of_getElem? ht) hl)
  | any b b' subs stmts i t p sims ht hu h1 h2 h3 _ ih =>
    exact .any _ _ _ _ _ _ _ _ ht hu h1 h2 h3 (ih fun l hl => hG l (.any _ _ t (List.mem_of_getElem? ht) hl))

variable [Blank L] (K : KeepLaws L P) {J : Store → Prop} {d : Dict Int} {G D : L → Prop}

/-- The relation between a leaf and the prover that `get_prover` returns for it. -/
def Fresh (J : Store → Prop) (d : Dict Int) (l : L) (p : P) : Prop :=
  ∃ w l' w', J w.store ∧ ProverOps.getProver l d w = .ok ((some p, l'), w')

include K in
theorem getProver_marked (F : FrameLaws (L := L) P J d G D)
    (hl : ∀ (l : L) (d : Option (Dict Int)) (w : World) (sim : Sim E) (w' : World),
      StmtOps.simulate l d none w = .ok (sim, w') → Drawn sim.challenge) :
    ∀ (t t' : Tree L) (p : PTree E L P) (w w' : World), Every G t → J w.store →
      PTree.getProver t d w = .ok ((some p, t'), w') → Marked (Fresh J d) t p := by
  intro t
  induction t using Tree.ind with
  | leaf l =>
    intro t' p w w' _ hw h
    simp only [PTree.getProver] at h
    obtain ⟨⟨q?, l'⟩, w1, h1, h⟩ := pm_bind.mp h
    rw [pm_pure_iff, Prod.mk.injEq, Prod.mk.injEq] at h
    cases q? with
    | none => simp at h
    | some q =>
      simp only [Option.map_some, Option.some.injEq] at h
      rw [← h.1.1]
      exact .leaf _ _ ⟨w, l', w1, hw, h1⟩
  | and s ts ih =>
    intro t' p w w' hG hw h
    have hG' : ∀ t ∈ ts, Every G t := fun t ht l hl => hG l (.all _ _ t ht hl)
    simp only [PTree.getProver] at h
    rw [pm_getStore_bind, pm_setStore_bind] at h
    cases s with
    | true =>
      simp only [if_true] at h
      rw [pm_pure_iff, Prod.mk.injEq, Prod.mk.injEq] at h
      simp at h
    | false =>
      simp only [Bool.false_eq_true, if_false] at h
      obtain ⟨⟨ps, subs'⟩, w1, h1, h⟩ := pm_bind.mp h
      have loop : ∀ (us us' : List (Tree L)) (qs : List (Option (PTree E L P))) (w w' : World),
          (∀ t ∈ us, t ∈ ts) → J w.store → PTree.getProverL us d w = .ok ((qs, us'), w') →
          ∀ ps, PTree.allSome qs = some ps → ps.length = us.length ∧
            ∀ (i : Nat) t p, us[i]? = some t → ps[i]? = some p → Marked (Fresh J d) t p := by
        intro us
        induction us with
        | nil =>
          intro us' qs w w' _ _ h ps hps
          simp only [PTree.getProverL, pm_pure_iff, Prod.mk.injEq] at h
          rw [← h.1.1] at hps
          simp only [PTree.allSome, Option.some.injEq] at hps
          rw [← hps]
          simp
        | cons u us ihu =>
          intro us' qs w w' hm hw h ps hps
          simp only [PTree.getProverL] at h
          obtain ⟨⟨q?, u1⟩, w2, h2, h⟩ := pm_bind.mp h
          obtain ⟨⟨qs1, us1⟩, w3, h3, h⟩ := pm_bind.mp h
          rw [pm_pure_iff, Prod.mk.injEq, Prod.mk.injEq] at h
          rw [← h.1.1] at hps
          have hw2 : J w2.store := frame_getProver K F u (hG' u (hm u (by simp))) _ _ _ hw h2
          cases q? with
          | none => simp [PTree.allSome] at hps
          | some q =>
            simp only [PTree.allSome, Option.map_eq_some_iff] at hps
            obtain ⟨ps1, hps1, rfl⟩ := hps
            obtain ⟨e1, e2⟩ := ihu us1 qs1 _ _ (fun t ht => hm t (by simp [ht])) hw2 h3 ps1 hps1
            refine ⟨by simp [e1], fun i t p ht hp => ?_⟩
            cases i with
            | zero =>
              simp only [List.getElem?_cons_zero, Option.some.injEq] at ht hp
              subst ht hp
              exact ih _ (hm _ (by simp)) _ _ _ _ (hG' _ (hm _ (by simp))) hw h2
            | succ i => exact e2 i t p (by simpa using ht) (by simpa using hp)
      cases ha : PTree.allSome ps with
      | none => simp only [ha] at h; exact (raise_ne.mp h).elim
      | some ps' =>
        simp only [ha] at h
        rw [pm_pure_iff, Prod.mk.injEq, Prod.mk.injEq] at h
        have := h.1.1
        simp only [Option.some.injEq] at this
        rw [← this]
        obtain ⟨e1, e2⟩ := loop ts subs' ps _ _ (fun _ h => h) (F.update _ hw) h1 ps' ha
        exact .all _ _ _ _ e1 e2
  | or s ts ih =>
    intro t' p w w' hG hw h
    have hG' : ∀ t ∈ ts, Every G t := fun t ht l hl => hG l (.any _ _ t ht hl)
    rcases getProver_or_cases (fun t ht w r w' hw hr => frame_getProver K F t (hG' t ht) _ _ _ hw hr)
      (F.update _ hw) h with ⟨_, h0⟩ | ⟨_, h0, _⟩ | ⟨rfl, i, u, stmts, sub, sims, w3, w4, t2, g1, g2, g3, g4, g5⟩
    · cases h0
    · cases h0
    · cases g5
      have hi : i < ts.length := (List.getElem?_eq_some_iff.mp g1).1
      simp only [PTree.getProver] at h
      rw [pm_getStore_bind, pm_setStore_bind] at h
      simp only [Bool.false_eq_true, if_false] at h
      obtain ⟨⟨r, subs'⟩, w5, k1, k2⟩ := pm_bind.mp h
      have hl1 := orLoop_length _ _ _ _ _ _ _ k1
      cases r with
      | none =>
        simp only at k2
        rw [pm_pure_iff, Prod.mk.injEq, Prod.mk.injEq] at k2
        cases k2.1.1
      | some ip =>
        obtain ⟨i', sub'⟩ := ip
        simp only at k2
        obtain ⟨⟨stmts', sims'⟩, w6, k3, k2⟩ := pm_bind.mp k2
        rw [pm_pure_iff, Prod.mk.injEq, Prod.mk.injEq] at k2
        have := k2.1.1
        simp only [Option.some.injEq, PTree.or.injEq] at this
        obtain ⟨_, rfl, rfl, rfl, rfl⟩ := this
        obtain ⟨e1, e2, _, e4⟩ := setup_drawn hl _ _ _ _ _ _ k3
        have := e4 (by omega) (by omega)
        exact .any _ _ _ _ i' u _ _ g1 g2 (by omega) (by omega) e2
          (ih u (List.mem_of_getElem? g1) _ _ _ _ (hG' u (List.mem_of_getElem? g1)) g3 g4)

end

theorem getProver_marked_core {d : Dict Int} {t t' : Core E} {p : CoreProver E} {w w' : World}
    (h : PTree.getProver t d w = .ok ((some p, t'), w')) : Marked (fun _ _ => True) t p := by
  have := getProver_marked (G := fun _ => True) keepCore (frameCore (J := fun _ => True) (d := d) fun _ _ => trivial)
    dlrep_drawn t t' p w w' (fun _ _ => trivial) trivial h
  exact marked_mono (fun _ _ _ => trivial) _ _ this

theorem commit_marked_core {d : Option (Dict Int)} {t : Core E} {p p' : CoreProver E} {v : Val E} {w w' : World}
    (hp : Marked (fun _ _ => True) t p) (h : PTree.internalCommit p d w = .ok ((v, p'), w')) :
    Marked (fun _ _ => True) t p' :=
  commit_marked (fun _ _ _ _ _ _ _ _ _ => trivial) t p p' d v w w' hp h

/-- The relation between a leaf and its prover after precommitting. -/
def Committed (J : Store → Prop) : Leaf E → LeafProver E → Prop
  | .dlrep _, .dlrep _ => True
  | .ext e, .ext p => ∃ (w w' : World) (v : Val E) (k : Core E), J w.store ∧ e.spec.precommit w = .ok (v, w') ∧
      e.spec.construct w'.store v = .ok k ∧ ∀ cp, p.constructed = some cp → Marked (fun _ _ => True) k cp
  | _, _ => False

theorem fresh_dlrep {J : Store → Prop} {d : Dict Int} {s : DLRep E} {p : LeafProver E} (h : Fresh J d (.dlrep s) p) :
    ∃ q, p = .dlrep q := by
  obtain ⟨w, l', w', _, h⟩ := h
  simp only [ProverOps.getProver] at h
  obtain ⟨⟨q?, s'⟩, w1, _, h⟩ := pm_bind.mp h
  rw [pm_pure_iff, Prod.mk.injEq, Prod.mk.injEq] at h
  cases q? with
  | none => simp at h
  | some q =>
    simp only [Option.map_some, Option.some.injEq] at h
    exact ⟨q, h.1.1.symm⟩

theorem fresh_ext {J : Store → Prop} {d : Dict Int} {e : Ext E} {p : LeafProver E} (h : Fresh J d (.ext e) p) :
    p = .ext ⟨e, d, none⟩ := by
  obtain ⟨w, l', w', _, h⟩ := h
  simp only [ProverOps.getProver] at h
  obtain ⟨⟨q?, s'⟩, w1, h1, h⟩ := pm_bind.mp h
  rw [pm_pure_iff, Prod.mk.injEq, Prod.mk.injEq] at h
  unfold ExtProver.getProver at h1
  rw [pm_getStore_bind, pm_setStore_bind, pm_pure_iff, Prod.mk.injEq, Prod.mk.injEq] at h1
  rw [← h1.1.1] at h
  simp only [Option.map_some, Option.some.injEq] at h
  exact h.1.1.symm

theorem frame_ext_precommit {J : Store → Prop} {d : Dict Int} (hup : ∀ σ, J σ → J (updateSecretValues σ d))
    {p : ExtProver E} (hd : p.secretValues = d) (hk : Keeping J p.stmt.spec) : Frame J (ExtProver.precommit p) := by
  unfold ExtProver.precommit
  refine frame_bind hk.1 fun v => frame_bind frame_getStore fun σ => frame_bind (frame_liftE _) fun s' =>
    frame_bind (frame_liftE _) fun t => frame_bind ?_ fun _ => frame_pure _
  rw [hd]
  exact frame_getProver keepCore (frameCore hup) t (fun _ _ => trivial)

theorem ext_precommit_marked {J : Store → Prop} {p p' : ExtProver E} {v : Val E} {w w' : World} (hw : J w.store)
    (h : ExtProver.precommit p w = .ok ((v, p'), w')) : Committed J (.ext p.stmt) (.ext p') := by
  unfold ExtProver.precommit at h
  obtain ⟨v1, w1, h1, h⟩ := pm_bind.mp h
  rw [pm_getStore_bind, pm_liftE_bind_iff] at h
  obtain ⟨s', h2, h⟩ := h
  unfold Ext.fullConstruct at h2
  obtain ⟨k, hk, h3⟩ := bind_ok_iff.mp h2
  injection h3 with h3; subst h3
  rw [pm_liftE_bind_iff] at h
  obtain ⟨k', h3, h⟩ := h
  simp only [Ext.inner, Except.ok.injEq] at h3
  subst h3
  obtain ⟨⟨cp, t'⟩, w2, h4, h⟩ := pm_bind.mp h
  simp only at h
  rw [pm_pure_iff] at h
  simp only [Prod.mk.injEq] at h
  refine ⟨w, w1, v1, k, hw, h1, hk, fun cp' hcp => ?_⟩
  rw [← h.1.2] at hcp
  simp only at hcp
  subst hcp
  exact getProver_marked_core h4

theorem prove_signed {J : Store → Prop} {d : Dict Int} (hup : ∀ σ, J σ → J (updateSecretValues σ d)) {env : Env E}
    {t t' : Stmt E} {w w' : World} {msg : String} {nizk : NIZK E} (hw : J (updateSecretValues w.store d))
    (hleaf : ∀ s, t ≠ .leaf (.dlrep s)) (hk : ∀ sp, Uses sp t → Keeping J sp)
    (h : prove (LeafProver E) env t d msg w = .ok ((nizk, t'), w')) :
    Signed (Shown J) t nizk.challenge nizk.responses := by
  have hall : Every (fun l : Leaf E => ∀ e, l = .ext e → Keeping J e.spec) t := by
    rintro _ hl e rfl
    exact hk _ ⟨e, rfl, hl⟩
  have hsame : (PTree.getProver t d : PM (Option (StmtProver E) × Stmt E)) w =
      (PTree.getProver t d : PM (Option (StmtProver E) × Stmt E)) ⟨updateSecretValues w.store d, w.rng⟩ := by
    cases t with
    | leaf l =>
      cases l with
      | dlrep s => exact (hleaf s rfl).elim
      | ext e =>
        simp only [PTree.getProver, ProverOps.getProver, ExtProver.getProver]
        simp only [bind, StateT.bind, getStore, setStore, pure, StateT.pure, Except.bind, Except.pure,
          updateSecretValues_idem]
    | and s subs =>
      simp only [PTree.getProver]
      rw [pm_getStore_bind, pm_setStore_bind, pm_getStore_bind, pm_setStore_bind]
      simp only [updateSecretValues_idem]
    | or s subs =>
      simp only [PTree.getProver]
      rw [pm_getStore_bind, pm_setStore_bind, pm_getStore_bind, pm_setStore_bind]
      simp only [updateSecretValues_idem]
  unfold prove at h
  obtain ⟨⟨p?, t1⟩, w1, h1, h2⟩ := pm_bind.mp h
  rw [hsame] at h1
  cases p? with
  | none => exact (raise_ne.mp h2).elim
  | some p =>
    simp only at h2
    obtain ⟨⟨n, p'⟩, w2, h3, h2⟩ := pm_bind.mp h2
    rw [pm_pure_iff, Prod.mk.injEq, Prod.mk.injEq] at h2
    obtain ⟨⟨rfl, _⟩, _⟩ := h2
    unfold PTree.getNizkProof at h3
    obtain ⟨⟨v, p1⟩, w3, k1, h3⟩ := pm_bind.mp h3
    obtain ⟨⟨com, p2⟩, w4, k2, h3⟩ := pm_bind.mp h3
    simp only at h3 k2
    rw [pm_getStore_bind, pm_liftE_bind_iff] at h3
    obtain ⟨id, _, h3⟩ := h3
    rw [pm_liftE_bind_iff] at h3
    obtain ⟨c, _, h3⟩ := h3
    obtain ⟨r, w5, k3, h3⟩ := pm_bind.mp h3
    rw [pm_pure_iff, Prod.mk.injEq, Prod.mk.injEq] at h3
    rw [← h3.1.1]
    have F := frameLeaf (E := E) hup
    have hw1 := frame_getProver keepLeaf F t hall _ _ _ hw h1
    have m0 := every_marked hall (getProver_marked keepLeaf F leaf_drawn t t1 p _ _ hall hw h1)
    obtain ⟨m1, _⟩ := precommit_marked (M' := Committed J) (J := J) (by
      rintro l p v p' w w' ⟨hl, hf⟩ hw h
      cases l with
      | dlrep s =>
        obtain ⟨q, rfl⟩ := fresh_dlrep hf
        simp only [ProverOps.precommit] at h
        rw [pm_pure_iff, Prod.mk.injEq, Prod.mk.injEq] at h
        rw [← h.1.2, ← h.2]
        exact ⟨trivial, hw⟩
      | ext e =>
        have hf' := fresh_ext hf
        subst hf'
        simp only [ProverOps.precommit] at h
        obtain ⟨⟨v1, q1⟩, w1, h1, h⟩ := pm_bind.mp h
        rw [pm_pure_iff, Prod.mk.injEq, Prod.mk.injEq] at h
        rw [← h.1.2, ← h.2]
        exact ⟨ext_precommit_marked hw h1, frame_ext_precommit hup rfl (hl e rfl) _ _ _ hw h1⟩)
      t p p1 v _ _ m0 hw1 k1
    have m2 := commit_marked (M := Committed J) (by
      rintro l p d v p' w w' hm h
      cases l with
      | dlrep s =>
        cases p with
        | ext q => exact hm.elim
        | dlrep q =>
          simp only [ProverOps.internalCommit] at h
          obtain ⟨⟨v1, q1⟩, w1, h1, h⟩ := pm_bind.mp h
          rw [pm_pure_iff, Prod.mk.injEq, Prod.mk.injEq] at h
          rw [← h.1.2]
          exact trivial
      | ext e =>
        cases p with
        | dlrep q => exact hm.elim
        | ext q =>
          simp only [ProverOps.internalCommit] at h
          obtain ⟨⟨v1, q1⟩, w1, h1, h⟩ := pm_bind.mp h
          rw [pm_pure_iff, Prod.mk.injEq, Prod.mk.injEq] at h
          rw [← h.1.2]
          obtain ⟨wa, wb, va, k, g1, g2, g3, g4⟩ := hm
          refine ⟨wa, wb, va, k, g1, g2, g3, ?_⟩
          unfold ExtProver.internalCommit at h1
          cases hc : q.stmt.constructed with
          | none => simp only [hc] at h1; exact (raise_ne.mp h1).elim
          | some t0 =>
            cases hq : q.constructed with
            | none => simp only [hc, hq] at h1; exact (raise_ne.mp h1).elim
            | some cp =>
              simp only [hc, hq] at h1
              obtain ⟨⟨v2, cp'⟩, w6, h6, h1⟩ := pm_bind.mp h1
              rw [pm_pure_iff, Prod.mk.injEq, Prod.mk.injEq] at h1
              rw [← h1.1.2]
              intro cp2 hcp2
              simp only [Option.some.injEq] at hcp2
              subst hcp2
              exact commit_marked_core (g4 cp hq) h6)
      t p1 p2 none com _ _ m1 k2
    exact respond_signed (M := Committed J) (R := Shown J) (by
      rintro l p c r w w' hm h
      cases l with
      | dlrep s => exact trivial
      | ext e =>
        cases p with
        | dlrep q => exact hm.elim
        | ext q =>
          obtain ⟨wa, wb, va, k, g1, g2, g3, g4⟩ := hm
          refine ⟨wa, wb, va, k, g1, g2, g3, ?_⟩
          simp only [ProverOps.computeResponse, ExtProver.computeResponse] at h
          cases hq : q.constructed with
          | none => simp only [hq] at h; exact (raise_ne.mp h).elim
          | some cp =>
            simp only [hq] at h
            exact respond_signed (fun _ _ _ _ _ _ _ _ => trivial) k cp c r _ _ (g4 cp hq) h)
      t p2 c r _ _ m2 k3

/-! ### Bits -/

theorem update_value (y : Sec) : ∀ d : Dict Int,
    (∀ σ τ : Store, (updateSecretValues σ d).value y = (updateSecretValues τ d).value y) ∨
    (∀ σ : Store, (updateSecretValues σ d).value y = σ.value y)
  | [] => .inr fun _ => rfl
  | e :: d => by
    have key : ∀ σ : Store, updateSecretValues σ (e :: d) = updateSecretValues (σ.setValue e.1 e.2) d := fun _ => rfl
    rcases update_value y d with h | h
    · left; intro σ τ; rw [key, key]; exact h _ _
    · by_cases hy : y = e.1
      · left
        intro σ τ
        rw [key, key, h, h, PowerTwo.setValue_value, PowerTwo.setValue_value, if_pos hy, if_pos hy]
      · right
        intro σ
        rw [key, h, PowerTwo.setValue_value, if_neg hy]

/-- What the explicit values say about a secret does not change when they are stored again. -/
theorem update_same {d : Dict Int} {y : Sec} {v : Option Int} {τ : Store}
    (h : (updateSecretValues τ d).value y = v) {σ : Store} (hσ : σ.value y = v) :
    (updateSecretValues σ d).value y = v := by
  rcases update_value y d with h' | h'
  · rw [h' σ τ, h]
  · rw [h', hσ]

namespace PowerTwo

theorem construct_bits {s : PowerTwo E} {σ : Store} {v : Val E} {k : Core E} {x : Int} (hp : s.isProver = true)
    (hx : σ.value s.x = some x) (h : s.construct σ v = .ok k) :
    ∃ (cs : List (Pt E)) (bs : List Int), cs.length = s.rands.length ∧ decomposeIntoNBits x s.numBits = .ok bs ∧
      k = .and false (build σ s cs s.rands (some bs)) := by
  unfold construct at h
  obtain ⟨bits, h0, h⟩ := bind_ok_iff.mp h
  obtain ⟨ps, h1, h⟩ := bind_ok_iff.mp h
  obtain ⟨cs, g1, g2, g3, rfl, g5⟩ := bitProofs_inv _ _ _ _ h1
  obtain ⟨rfl, h2⟩ := mkAnd_ok h
  simp only [proverBits, hp, if_true, value, hx, bind_ok] at h0
  obtain ⟨bs, h3, h0⟩ := bind_ok_iff.mp h0
  injection h0 with h0
  subst h0
  exact ⟨cs, bs, g1, h3, rfl⟩

theorem readClause_signed {σ : Store} {s : PowerTwo E} {c : Pt E} {r : Sec} {b ch : Int} {v : Val E}
    (hb : b = 0 ∨ b = 1) (hch : ch % 2 ^ challengeLength ≠ 0)
    (h : Signed (fun _ _ _ => True) (.or false (clauses σ s c r (some b)) : Core E) ch v) :
    readClause v = some b.toNat := by
  generalize ht : (Tree.or false (clauses σ s c r (some b)) : Core E) = t at h
  cases h with
  | leaf => cases ht
  | all => cases ht
  | any b' subs _ cs rs i u hu hn hs hl hrec =>
    cases ht
    obtain ⟨hlen, hidx, hsum, hpr, hot⟩ := hs
    simp only [clauses, List.length_cons, List.length_nil, Nat.reduceAdd] at hlen hidx
    obtain ⟨c0, c1, rfl⟩ : ∃ c0 c1, cs = [c0, c1] := by
      match cs, hlen with
      | [a, b], _ => exact ⟨a, b, rfl⟩
    have hib : i = b.toNat := by
      have : i = 0 ∨ i = 1 := by omega
      rcases hb with rfl | rfl <;> rcases this with rfl | rfl <;>
        first
        | rfl
        | (simp only [clauses, List.getElem?_cons_zero, List.getElem?_cons_succ, Option.some.injEq] at hu
           subst hu
           simp [Tree.simulated, StmtOps.simulated] at hn)
    have hzero : ¬ (c0 = 0 ∧ c1 = 0) := by
      rintro ⟨rfl, rfl⟩
      apply hch
      rw [← hsum]
      rfl
    simp only [List.map_cons, List.map_nil, readClause]
    rcases hb with rfl | rfl
    · obtain rfl : i = 0 := hib
      have h0 := (hpr c0 rfl).2
      have h1 := (hot 1 c1 rfl (by omega)).1
      rw [if_pos (by omega)]
      rfl
    · obtain rfl : i = 1 := hib
      have h0 := (hot 0 c0 rfl (by omega)).1
      have h1 := (hpr c1 rfl).2
      rw [if_neg (by omega), if_pos (by omega)]
      rfl

theorem readNumber_signed {σ : Store} {s : PowerTwo E} {ch : Int} (hch : ch % 2 ^ challengeLength ≠ 0) :
    ∀ (rands : List Sec) (cs : List (Pt E)) (bs : List Int) (vs : List (Val E)), cs.length = rands.length →
    bs.length = rands.length → (∀ b ∈ bs, b = 0 ∨ b = 1) →
    vs.length = (build σ s cs rands (some bs)).length →
    (∀ (i : Nat) t v, (build σ s cs rands (some bs))[i]? = some t → vs[i]? = some v →
      Signed (fun _ _ _ => True) t ch v) →
    (readNumber vs).map Int.ofNat = some (horner bs)
  | [], [], [], vs, _, _, _, hl, _ => by
    simp only [build, List.length_nil] at hl
    have : vs = [] := List.length_eq_zero_iff.mp hl
    subst this
    rfl
  | r :: rands, c :: cs, b :: bs, vs, h1, h2, h3, hl, h4 => by
    simp only [build] at hl h4
    cases vs with
    | nil => simp at hl
    | cons v vs =>
      have hb := h3 b (by simp)
      have e1 := readClause_signed hb hch (h4 0 _ v rfl rfl)
      have e2 := readNumber_signed hch rands cs bs vs (by simpa using h1) (by simpa using h2)
        (fun b hb => h3 b (by simp [hb])) (by simpa using hl)
        (fun i t v ht hv => h4 (i + 1) t v (by simpa using ht) (by simpa using hv))
      obtain ⟨n, hn, hn'⟩ := Option.map_eq_some_iff.mp e2
      simp only [readNumber, e1, hn, Option.bind_eq_bind, Option.bind_some, Option.map_some, Option.some.injEq,
        horner, ← hn', Int.ofNat_eq_natCast]
      rcases hb with rfl | rfl
      · simp
      · simp

theorem readValue_shown {s : PowerTwo E} {J : Store → Prop} {ch x : Int} {v : Val E}
    (hch : ch % 2 ^ challengeLength ≠ 0) (hp : s.isProver = true) (hJ : ∀ σ, J σ → σ.value s.x = some x)
    (hr : s.x ∉ s.rands) (h : Shown J (.ext ⟨s.spec, false, .none, none, none⟩) ch v) :
    (readValue v).map Int.ofNat = some x := by
  obtain ⟨w, w', pv, k, h1, h2, h3, h4⟩ := h
  have hx : w'.store.value s.x = some x := by
    rw [← hJ _ h1]
    exact congrArg Prod.snd (precommit_frame h2 _ hr)
  obtain ⟨cs, bs, g1, g2, rfl⟩ := construct_bits hp hx h3
  obtain ⟨l1, l2, l3⟩ := decompose_ok g2
  generalize ht : (Tree.and false (build w'.store s cs s.rands (some bs)) : Core E) = t at h4
  cases h4 with
  | leaf => cases ht
  | any => cases ht
  | all b' subs _ rs hl hrec =>
    cases ht
    show (readNumber rs).map Int.ofNat = some x
    rw [readNumber_signed hch s.rands cs bs rs g1 l1 l2 hl hrec, l3]

/-- The methods of the range statement keep the values of all secrets but the randomizers. -/
theorem keeping {s : PowerTwo E} {y : Sec} {v : Option Int} (hy : y ∉ s.rands) :
    Keeping (fun σ => σ.value y = v) s.spec := by
  constructor
  · intro w a w' hw h
    rw [← hw]
    exact congrArg Prod.snd (precommit_frame h _ hy)
  · show Frame _ s.simPrecommit
    unfold simPrecommit
    refine frame_bind ?_ fun vs => ?_
    · generalize s.numBits = n
      induction n with
      | zero => exact frame_pure _
      | succ n ih => exact frame_bind (frame_draw _) fun _ => frame_bind ih fun _ => frame_pure _
    · cases vs with
      | nil => exact frame_raise _
      | cons v rest => exact frame_bind (frame_liftE _) fun _ => frame_pure _

end PowerTwo

end Zksk
