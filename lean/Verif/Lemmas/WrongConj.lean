import Verif.Lemmas.WrongExt
import Verif.Lemmas.Truth
import Verif.Lemmas.RangeRun
import Verif.Lemmas.Accept

/-! Conjunctions with an extended part whose precommitment is not valid. -/

set_option linter.unusedSectionVars false

namespace Zksk

open Spec

variable {E : Type} [AddCommGroup E] [DecidableEq E]

/-- `precommit()` keeps the invariant, and well-formed statements are constructed. -/
def Steady (I : Store → Prop) (sp : ExtSpec E) : Prop :=
  (∀ (w : World) (v : Val E) (w' : World), I w.store → sp.precommit w = .ok (v, w') → I w'.store) ∧
    ∀ σ v k, sp.construct σ v = .ok k → WellFormed k

/-- The prover of a conjunction before `precommit()`. -/
inductive Starts (d : Dict Int) : Stmt E → StmtProver E → Prop
  | rep (s : DLRep E) (q : DLRepProver E) : Starts d (.leaf (.dlrep s)) (.leaf (.dlrep q))
  | ext (e : Ext E) : Starts d (.leaf (.ext e)) (.leaf (.ext ⟨e, d, none⟩))
  | all (b b' : Bool) (ts : List (Stmt E)) (ps : List (StmtProver E)) (hl : ps.length = ts.length)
      (h : ∀ (i : Nat) (t : Stmt E) (p : StmtProver E), ts[i]? = some t → ps[i]? = some p → Starts d t p) :
      Starts d (.and b ts) (.and b' ps)

/-- `u` is the entry for the leaf in the precommitment `v`. -/
inductive EntryFor (l : Leaf E) : Stmt E → Val E → Val E → Prop
  | here (v : Val E) : EntryFor l (.leaf l) v v
  | down (b : Bool) (ts : List (Stmt E)) (t : Stmt E) (i : Nat) (v vi u : Val E) (ht : ts[i]? = some t)
      (hv : v.index i = .ok vi) (h : EntryFor l t vi u) : EntryFor l (.and b ts) v u

section

variable {I : Store → Prop} {d : Dict Int}

theorem starts_getProver (hup : ∀ σ, I σ → I (updateSecretValues σ d)) {t : Stmt E} (ht : NoOr t) :
    ∀ (p : StmtProver E) (t' : Stmt E) (w w' : World), I w.store →
      PTree.getProver t d w = .ok ((some p, t'), w') → I w'.store ∧ Starts d t p := by
  have hany : ∀ (t : Stmt E), NoOr t → ∀ (p? : Option (StmtProver E)) (t' : Stmt E) (w w' : World), I w.store →
      PTree.getProver t d w = .ok ((p?, t'), w') → I w'.store ∧ ∀ p, p? = some p → Starts d t p := by
    intro t ht
    induction ht with
    | leaf l =>
      intro p? t' w w' hI h
      cases l with
      | dlrep s =>
        obtain ⟨rfl, hq⟩ := getProver_rep h
        refine ⟨hI, fun p hp => ?_⟩
        obtain ⟨q, rfl⟩ := hq p hp
        exact .rep s q
      | ext e =>
        have hg : (PTree.getProver (.leaf (.ext e)) d : PM (Option (StmtProver E) × Stmt E)) w =
          .ok ((some (.leaf (.ext ⟨e, d, none⟩)), .leaf (.ext e)),
            { w with store := updateSecretValues w.store d }) := rfl
        rw [hg] at h
        simp only [Except.ok.injEq, Prod.mk.injEq] at h
        obtain ⟨⟨rfl, _⟩, rfl⟩ := h
        refine ⟨hup _ hI, fun p hp => ?_⟩
        cases hp
        exact .ext e
    | all b subs _ ih =>
      intro p? t' w w' hI h
      rw [PTree.getProver] at h
      rw [pm_getStore_bind, pm_setStore_bind] at h
      cases b with
      | true =>
        simp only [if_true] at h
        rw [pm_pure_iff, Prod.mk.injEq, Prod.mk.injEq] at h
        obtain ⟨⟨rfl, _⟩, rfl⟩ := h
        exact ⟨hup _ hI, by simp⟩
      | false =>
        simp only [Bool.false_eq_true, if_false] at h
        obtain ⟨⟨ps, subs'⟩, w1, h1, h⟩ := pm_bind.mp h
        have loop : ∀ (us : List (Stmt E)), (∀ t ∈ us, t ∈ subs) → ∀ (us' : List (Stmt E))
            (qs : List (Option (StmtProver E))) (w w' : World), I w.store →
            PTree.getProverL us d w = .ok ((qs, us'), w') → I w'.store ∧ ∀ ps, PTree.allSome qs = some ps →
              ps.length = us.length ∧ ∀ (i : Nat) (t : Stmt E) (p : StmtProver E), us[i]? = some t →
                ps[i]? = some p → Starts d t p := by
          intro us
          induction us with
          | nil =>
            intro _ us' qs w w' hI h
            simp only [PTree.getProverL, pm_pure_iff, Prod.mk.injEq] at h
            obtain ⟨⟨rfl, _⟩, rfl⟩ := h
            refine ⟨hI, fun ps hps => ?_⟩
            simp only [PTree.allSome, Option.some.injEq] at hps
            subst hps
            exact ⟨rfl, by simp⟩
          | cons u us ihu =>
            intro hm us' qs w w' hI h
            simp only [PTree.getProverL] at h
            obtain ⟨⟨q?, u1⟩, w2, h2, h⟩ := pm_bind.mp h
            obtain ⟨⟨qs1, us1⟩, w3, h3, h⟩ := pm_bind.mp h
            rw [pm_pure_iff, Prod.mk.injEq, Prod.mk.injEq] at h
            obtain ⟨⟨rfl, _⟩, rfl⟩ := h
            obtain ⟨i2, s2⟩ := ih u (hm u (by simp)) q? u1 _ _ hI h2
            obtain ⟨i3, s3⟩ := ihu (fun t ht => hm t (by simp [ht])) us1 qs1 _ _ i2 h3
            refine ⟨i3, fun ps hps => ?_⟩
            cases q? with
            | none => simp [PTree.allSome] at hps
            | some q =>
              simp only [PTree.allSome, Option.map_eq_some_iff] at hps
              obtain ⟨ps1, hps1, rfl⟩ := hps
              obtain ⟨l1, r1⟩ := s3 ps1 hps1
              refine ⟨by simp [l1], fun i t p ht hp => ?_⟩
              cases i with
              | zero =>
                simp only [List.getElem?_cons_zero, Option.some.injEq] at ht hp
                subst ht; subst hp
                exact s2 q rfl
              | succ i => exact r1 i t p (by simpa using ht) (by simpa using hp)
        obtain ⟨i1, s1⟩ := loop subs (fun _ h => h) subs' ps _ _ (hup _ hI) h1
        cases ha : PTree.allSome ps with
        | none => simp only [ha] at h; exact (raise_ne.mp h).elim
        | some ps' =>
          simp only [ha] at h
          rw [pm_pure_iff, Prod.mk.injEq, Prod.mk.injEq] at h
          obtain ⟨⟨rfl, _⟩, rfl⟩ := h
          refine ⟨i1, fun p hp => ?_⟩
          cases hp
          obtain ⟨l1, r1⟩ := s1 ps' ha
          exact .all _ _ _ _ l1 r1
  intro p t' w w' hI h
  obtain ⟨h1, h2⟩ := hany t ht (some p) t' w w' hI h
  exact ⟨h1, h2 p rfl⟩

theorem steady_getProver (hup : ∀ σ, I σ → I (updateSecretValues σ d)) {k k' : Core E} (hwf : WellFormed k)
    {p? : Option (CoreProver E)} {w w' : World} (hI : I w.store)
    (h : PTree.getProver k d w = .ok ((p?, k'), w')) : I w'.store := by
  cases k with
  | leaf s =>
    simp only [PTree.getProver, ProverOps.getProver] at h
    obtain ⟨⟨q1, t1⟩, w1, h1, h⟩ := pm_bind.mp h
    rw [pm_pure_iff] at h
    obtain ⟨_, rfl⟩ := Prod.mk.injEq .. ▸ h
    unfold DLRepProver.getProver at h1
    rw [pm_getStore_bind] at h1
    split at h1 <;>
    · rw [pm_pure_iff] at h1
      simp only [Prod.mk.injEq] at h1
      rw [← h1.2]; exact hI
  | and b subs =>
    rw [getProver_heap (by simp), heapFor_eq _ _ (by simp)] at h
    rw [(getProver_frame (updateSecretValues_idem _ _) hwf rfl h).1]
    exact hup _ hI
  | or b subs =>
    rw [getProver_heap (by simp), heapFor_eq _ _ (by simp)] at h
    rw [(getProver_frame (updateSecretValues_idem _ _) hwf rfl h).1]
    exact hup _ hI

theorem starts_precommit (hup : ∀ σ, I σ → I (updateSecretValues σ d)) (e : Ext E)
    (hbad : ∀ (w : World) (v : Val E) (w' : World), I w.store → e.spec.precommit w = .ok (v, w') →
      v ≠ .none ∧ e.spec.validate v ≠ .ok ()) {t : Stmt E} {p : StmtProver E} (hs : Starts d t p) :
    ∀ (p' : StmtProver E) (v : Val E) (w w' : World), (∀ e', HasLeaf (.ext e') t → Steady I e'.spec) → I w.store →
      PTree.precommit p w = .ok ((v, p'), w') → I w'.store ∧
      (HasLeaf (.ext e) t → v ≠ .none ∧ ∃ u, EntryFor (.ext e) t v u ∧ e.spec.validate u ≠ .ok ()) := by
  induction hs with
  | rep s q =>
    intro p' v w w' _ hI h
    simp only [PTree.precommit, ProverOps.precommit] at h
    obtain ⟨⟨v1, p1⟩, w1, h1, h⟩ := pm_bind.mp h
    rw [pm_pure_iff, Prod.mk.injEq] at h1 h
    obtain ⟨_, rfl⟩ := h1
    obtain ⟨_, rfl⟩ := h
    exact ⟨hI, fun h => by cases h⟩
  | ext e' =>
    intro p' v w w' hst hI h
    obtain ⟨g1, g2⟩ := hst e' .leaf
    simp only [PTree.precommit, ProverOps.precommit] at h
    obtain ⟨⟨v1, p1⟩, w1, h1, h⟩ := pm_bind.mp h
    rw [pm_pure_iff, Prod.mk.injEq, Prod.mk.injEq] at h
    simp only at h
    obtain ⟨⟨rfl, _⟩, rfl⟩ := h
    obtain ⟨⟨v2, ep⟩, w2, h2, h1⟩ := pm_bind.mp h1
    rw [pm_pure_iff, Prod.mk.injEq, Prod.mk.injEq] at h1
    simp only at h1
    obtain ⟨⟨rfl, _⟩, rfl⟩ := h1
    unfold ExtProver.precommit at h2
    obtain ⟨v3, w7, h6, h5⟩ := pm_bind.mp h2
    rw [pm_getStore_bind, pm_liftE_bind_iff] at h5
    obtain ⟨s1, h7, h5⟩ := h5
    rw [pm_liftE_bind_iff] at h5
    obtain ⟨t1, h8, h5⟩ := h5
    obtain ⟨⟨cp, k'⟩, w8, h9, h5⟩ := pm_bind.mp h5
    rw [pm_pure_iff, Prod.mk.injEq, Prod.mk.injEq] at h5
    simp only at h5
    obtain ⟨⟨rfl, _⟩, rfl⟩ := h5
    unfold Ext.fullConstruct at h7
    obtain ⟨k, hk, h7⟩ := bind_ok_iff.mp h7
    cases h7
    simp only [Ext.inner, Except.ok.injEq] at h8
    subst h8
    refine ⟨steady_getProver hup (g2 _ _ _ hk) (g1 _ _ _ hI h6) h9, fun hl => ?_⟩
    cases hl
    obtain ⟨b1, b2⟩ := hbad _ _ _ hI h6
    exact ⟨b1, _, .here _, b2⟩
  | all b b' ts ps hl hps ih =>
    intro p' v w w' hst hI h
    simp only [PTree.precommit] at h
    obtain ⟨⟨vs, ps1⟩, w1, h1, h⟩ := pm_bind.mp h
    rw [pm_pure_iff, Prod.mk.injEq, Prod.mk.injEq] at h
    simp only at h
    obtain ⟨⟨rfl, _⟩, rfl⟩ := h
    have loop : ∀ (us : List (Stmt E)) (qs : List (StmtProver E)), qs.length = us.length →
        (∀ (i : Nat) (t : Stmt E) (p : StmtProver E), us[i]? = some t → qs[i]? = some p →
          ∀ (p' : StmtProver E) (v : Val E) (w w' : World), I w.store →
            PTree.precommit p w = .ok ((v, p'), w') → I w'.store ∧
            (HasLeaf (.ext e) t → v ≠ .none ∧ ∃ u, EntryFor (.ext e) t v u ∧ e.spec.validate u ≠ .ok ())) →
        ∀ (qs' : List (StmtProver E)) (vs : List (Val E)) (w w' : World), I w.store →
          PTree.precommitL qs w = .ok ((vs, qs'), w') → I w'.store ∧
          ∀ (i : Nat) (t : Stmt E), us[i]? = some t → HasLeaf (.ext e) t → ∃ v, vs[i]? = some v ∧ v ≠ .none ∧
            ∃ u, EntryFor (.ext e) t v u ∧ e.spec.validate u ≠ .ok () := by
      intro us
      induction us with
      | nil =>
        intro qs hq _ qs' vs w w' hI h
        have := List.length_eq_zero_iff.mp hq
        subst this
        simp only [PTree.precommitL, pm_pure_iff, Prod.mk.injEq] at h
        obtain ⟨_, rfl⟩ := h
        exact ⟨hI, by simp⟩
      | cons u us ihu =>
        intro qs hq hall qs' vs w w' hI h
        cases qs with
        | nil => simp at hq
        | cons q qs =>
          simp only [PTree.precommitL] at h
          obtain ⟨⟨v1, q1⟩, w2, h2, h⟩ := pm_bind.mp h
          obtain ⟨⟨vs1, qs1⟩, w3, h3, h⟩ := pm_bind.mp h
          rw [pm_pure_iff, Prod.mk.injEq, Prod.mk.injEq] at h
          simp only at h
          obtain ⟨⟨rfl, _⟩, rfl⟩ := h
          obtain ⟨i2, s2⟩ := hall 0 u q rfl rfl _ _ _ _ hI h2
          obtain ⟨i3, s3⟩ := ihu qs (by simpa using hq)
            (fun i t p ht hp => hall (i + 1) t p (by simpa using ht) (by simpa using hp)) _ _ _ _ i2 h3
          refine ⟨i3, fun i t ht hl => ?_⟩
          cases i with
          | zero =>
            simp only [List.getElem?_cons_zero, Option.some.injEq] at ht
            subst ht
            obtain ⟨a1, a2⟩ := s2 hl
            exact ⟨_, rfl, a1, a2⟩
          | succ i =>
            obtain ⟨v, a1, a2⟩ := s3 i t (by simpa using ht) hl
            exact ⟨v, by simpa using a1, a2⟩
    obtain ⟨i1, s1⟩ := loop ts ps hl (fun i t p ht hp p' v w w' => ih i t p ht hp p' v w w' fun e' he' =>
      hst e' (.all b ts t (List.mem_of_getElem? ht) he')) _ _ _ _ hI h1
    refine ⟨i1, fun hle => ?_⟩
    cases hle with
    | all _ _ t ht hle =>
      obtain ⟨i, hi⟩ := List.getElem?_of_mem ht
      obtain ⟨v, a1, a2, u, a3, a4⟩ := s1 i t hi hle
      have hne : vs.all Val.isNone = false := by
        rw [List.all_eq_false]
        exact ⟨v, List.mem_of_getElem? a1, fun hn => a2 (by cases v <;> first | rfl | cases hn)⟩
      simp only [PTree.andPrecommitment, hne, Bool.false_eq_true, if_false]
      exact ⟨by simp, u, .down b ts t i _ v u hi (by simp [Val.index, a1]) a3, a4⟩

theorem entry_valid {σv : Store} {e : Ext E} {t : Stmt E} {v u : Val E} (h : EntryFor (.ext e) t v u) :
    ∀ (tv : Stmt E) (S : Skel E) (k : Core E), VerifierFor σv tv t → Digested σv tv v S k → e.spec.validate u = .ok () := by
  induction h with
  | here v =>
    intro tv S k hf hd
    cases hf with
    | leaf a _ h =>
      cases a with
      | dlrep a => exact h.elim
      | ext sv =>
        have := (digested_ext hd).2
        rwa [h.2.1] at this
  | down b ts t i v vi u ht hv h ih =>
    intro tv S k hf hd
    cases hf with
    | all b' _ us _ hlen hf =>
      have hi := (List.getElem?_eq_some_iff.mp ht).1
      generalize htv : (Tree.and b' us : Stmt E) = tv' at hd
      cases hd with
      | bare k => simp [Val.index] at hv
      | rep => simp at htv
      | ext => simp at htv
      | any => simp at htv
      | all b2 subs v' vi' Ss ks hv' hS hk hvi h' =>
        simp only [Tree.and.injEq] at htv
        obtain ⟨rfl, rfl⟩ := htv
        have e1 := Except.ok.inj (hv.symm.trans (hvi i (by omega)))
        exact ih us[i] _ _ (hf i _ _ (List.getElem?_eq_getElem (by omega)) ht)
          (e1 ▸ h' i _ _ _ (List.getElem?_eq_getElem (by omega)) (List.getElem?_eq_getElem (by omega))
            (List.getElem?_eq_getElem (by omega)))

/-- A conjunction with an extended part whose precommitment is not valid is not accepted. -/
theorem conj_invalid {env : Env E} {t t' tv : Stmt E} {msg : String} {w w' : World} {nizk : NIZK E} {σv : Store}
    (hup : ∀ σ, I σ → I (updateSecretValues σ d)) (h0 : I (updateSecretValues w.store d)) (hno : NoOr t)
    (hst : ∀ e', HasLeaf (.ext e') t → Steady I e'.spec) (e : Ext E) (he : HasLeaf (.ext e) t)
    (hbad : ∀ (w : World) (v : Val E) (w' : World), I w.store → e.spec.precommit w = .ok (v, w') →
      v ≠ .none ∧ e.spec.validate v ≠ .ok ())
    (h : prove (LeafProver E) env t d msg w = .ok ((nizk, t'), w')) (hf : VerifierFor σv tv t) :
    verify env σv tv nizk msg ≠ .ok true := by
  intro hv
  have hsame : ∀ w : World, (PTree.getProver t d : PM (Option (StmtProver E) × Stmt E)) w =
      PTree.getProver t d { w with store := updateSecretValues w.store d } := by
    intro w
    cases he with
    | leaf =>
      have hg : ∀ w : World, (PTree.getProver (.leaf (.ext e)) d : PM (Option (StmtProver E) × Stmt E)) w =
          .ok ((some (.leaf (.ext ⟨e, d, none⟩)), .leaf (.ext e)),
            { w with store := updateSecretValues w.store d }) := fun _ => rfl
      rw [hg, hg, updateSecretValues_idem]
    | all b subs =>
      simp only [PTree.getProver]
      rw [pm_getStore_bind, pm_setStore_bind, pm_getStore_bind, pm_setStore_bind, updateSecretValues_idem]
    | any => cases hno
  unfold prove at h
  obtain ⟨⟨p?, t1⟩, w1, hp, h⟩ := pm_bind.mp h
  rw [hsame] at hp
  cases p? with
  | none => exact (raise_ne.mp h).elim
  | some p =>
    obtain ⟨i1, hs⟩ := starts_getProver hup hno p t1 _ _ h0 hp
    simp only at h
    obtain ⟨⟨n, p'⟩, w2, h2, h⟩ := pm_bind.mp h
    rw [pm_pure_iff, Prod.mk.injEq, Prod.mk.injEq] at h
    simp only at h
    obtain ⟨⟨rfl, rfl⟩, rfl⟩ := h
    unfold PTree.getNizkProof at h2
    obtain ⟨⟨v, p1⟩, w3, h3, h2⟩ := pm_bind.mp h2
    obtain ⟨⟨com, p2⟩, w4, h4, h2⟩ := pm_bind.mp h2
    simp only at h2
    rw [pm_getStore_bind, pm_liftE_bind_iff] at h2
    obtain ⟨id, _, h2⟩ := h2
    rw [pm_liftE_bind_iff] at h2
    obtain ⟨c, _, h2⟩ := h2
    obtain ⟨r, w5, _, h2⟩ := pm_bind.mp h2
    rw [pm_pure_iff, Prod.mk.injEq, Prod.mk.injEq] at h2
    obtain ⟨⟨rfl, _⟩, _⟩ := h2
    obtain ⟨_, hu⟩ := starts_precommit hup e hbad hs _ _ _ _ hst i1 h3
    obtain ⟨_, u, h6, h7⟩ := hu he
    obtain ⟨S, k, _, _, _, _, hd, _⟩ := (verify_iff env σv tv _ msg true).mp hv
    exact h7 (entry_valid h6 tv S k hf (digestedTop_digested hd))

end

end Zksk
