import Verif.Props.Self
import Verif.Lemmas.Reuse

/-! C32 for disjunctions: which statement objects can be used again and again. -/

set_option linter.unusedSectionVars false

namespace Zksk.Props

open Spec

variable {E : Type} [AddCommGroup E] [DecidableEq E]

/-- Every disjunction that may be proved has a clause which is not marked as simulated and is not a bare representation
(a conjunction, another disjunction or an extended statement): only bare representations get marked by `prove()`. -/
inductive Sturdy : Stmt E → Prop
  | leaf (l : Leaf E) : Sturdy (.leaf l)
  | all (b : Bool) (subs : List (Stmt E)) (h : ∀ t ∈ subs, Sturdy t) : Sturdy (.and b subs)
  | any (b : Bool) (subs : List (Stmt E)) (hex : ∃ t ∈ subs, t.simulated = false ∧ ∀ s, t ≠ .leaf (.dlrep s))
      (h : ∀ t ∈ subs, t.simulated = false → Sturdy t) : Sturdy (.or b subs)

/-- A history of successful calls of `prove()` with one dictionary and of `verify()` with any proofs, on one statement
object and one set of secrets: `t`, `σ` before and `t'`, `σ'` after; messages and random draws are arbitrary. -/
inductive History (env : Env E) (d : Dict Int) : Stmt E → Store → Stmt E → Store → Prop
  | none (t : Stmt E) (σ : Store) : History env d t σ t σ
  | prove (t t1 t2 : Stmt E) (σ σ1 : Store) (w2 : World) (rng : Nat → Nat) (msg : String) (nizk : NIZK E)
      (h : History env d t σ t1 σ1)
      (hp : prove (LeafProver E) env t1 d msg ⟨σ1, rng⟩ = .ok ((nizk, t2), w2)) : History env d t σ t2 w2.store
  | verify (t t1 t2 : Stmt E) (σ σ1 : Store) (v : Val E) (h : History env d t σ t1 σ1)
      (hv : digestPrecommitment σ1 (Tree.freshVerifier t1) v = .ok t2) : History env d t σ t2 σ1

/-- Helper: how a leaf may have changed. -/
def LeafKept (σ : Store) (d : Dict Int) : Leaf E → Leaf E → Prop
  | .dlrep s, .dlrep s' => s'.lhs = s.lhs ∧ s'.bases = s.bases ∧ s'.secretVars = s.secretVars ∧
      (s.simulated = true → s'.simulated = true) ∧
      (∀ S : Sec → Prop, (∀ e ∈ d, S e.1) → (∀ e ∈ s.secretValues, S e.1) → ∀ e ∈ s'.secretValues, S e.1) ∧
      ∀ x, given σ d s' x = given σ d s x
  | .ext a, .ext b => b.spec = a.spec ∧ b.simulated = a.simulated
  | _, _ => False

/-- Helper: simulating does not change the heap. -/
def LeafStill (σ : Store) : Leaf E → Prop
  | .dlrep _ => True
  | .ext a => ∀ (w w' : World) (v : Val E), w.store = σ → a.spec.simPrecommit w = .ok (v, w') → w'.store = σ

theorem leafKept_refl (σ : Store) (d : Dict Int) (l : Leaf E) : LeafKept σ d l l := by
  cases l with
  | dlrep s => exact ⟨rfl, rfl, rfl, id, fun _ _ h => h, fun _ => rfl⟩
  | ext a => exact ⟨rfl, rfl⟩

theorem leafKept_of_construct {σ0 σ : Store} {d : Dict Int} {a b : Ext E} {v : Val E}
    (h : Ext.fullConstruct σ0 a v = .ok b) : LeafKept σ d (.ext a) (.ext b) := by
  simp only [Ext.fullConstruct] at h
  obtain ⟨t, _, h⟩ := bind_ok_iff.mp h
  injection h with h
  subst h
  exact ⟨rfl, rfl⟩

/-- Helper: the methods of leaves. -/
theorem reuseLeaf {σ : Store} {d : Dict Int} (hσ : updateSecretValues σ d = σ) :
    ReuseLaws (LeafProver E) (fun σ' => σ' = σ) d (LeafStill (E := E) σ) (LeafKept σ d) where
  refl := leafKept_refl σ d
  trans a b c h1 h2 := by
    cases a <;> cases b <;> cases c <;> first | exact h1.elim | exact h2.elim | skip
    · obtain ⟨a1, a2, a3, a4, a5, a6⟩ := h1
      obtain ⟨b1, b2, b3, b4, b5, b6⟩ := h2
      exact ⟨b1.trans a1, b2.trans a2, b3.trans a3, fun h => b4 (a4 h), fun S hd h => b5 S hd (a5 S hd h),
        fun x => (b6 x).trans (a6 x)⟩
    · exact ⟨h2.1.trans h1.1, h2.2.trans h1.2⟩
  lasting l l' h hl := by
    cases l <;> cases l' <;> first | exact h.elim | skip
    · trivial
    · show ∀ _ _ _, _
      rw [h.1]; exact hl
  update σ' h := by rw [h, hσ]
  simulate := frame_simulate_leaf
  prepare l l' w w' hl hw h := by
    cases l with
    | dlrep s =>
      have h' : (pure (Leaf.dlrep s) : PM (Leaf E)) w = .ok (l', w') := h
      rw [pm_pure_iff, Prod.mk.injEq] at h'
      rw [← h'.1, ← h'.2]
      exact ⟨hw, leafKept_refl σ d _⟩
    | ext a =>
      have h' : (Ext.prepareSim a >>= fun b => pure (Leaf.ext b) : PM (Leaf E)) w = .ok (l', w') := h
      obtain ⟨b, w1, h1, h'⟩ := pm_bind.mp h'
      rw [pm_pure_iff, Prod.mk.injEq] at h'
      rw [← h'.1, ← h'.2]
      simp only [Ext.prepareSim] at h1
      obtain ⟨v, w2, h2, h1⟩ := pm_bind.mp h1
      rw [pm_getStore_bind] at h1
      obtain ⟨h3, h4⟩ := liftE_iff.mp h1
      simp only at h3 h4
      rw [← h4]
      exact ⟨hl _ _ _ hw h2, leafKept_of_construct h3⟩
  getProver l l' p? w w' hl hw h := by
    cases l with
    | dlrep s =>
      simp only [ProverOps.getProver] at h
      obtain ⟨⟨q?, s'⟩, w1, h1, h⟩ := pm_bind.mp h
      rw [pm_pure_iff, Prod.mk.injEq, Prod.mk.injEq] at h
      rw [← h.1.1, ← h.1.2, ← h.2]
      simp only [DLRepProver.getProver] at h1
      rw [pm_getStore_bind] at h1
      have hk : LeafKept σ d (.dlrep s)
          (.dlrep { s with secretValues := Dict.update w.store s.secretValues d, simulated := true }) := by
        refine ⟨rfl, rfl, rfl, fun _ => rfl, fun S hd hs => mem_update_key hs hd, fun x => ?_⟩
        exact given_again (by rw [hw]) x
      split at h1
      · rw [pm_pure_iff, Prod.mk.injEq, Prod.mk.injEq] at h1
        rw [← h1.1.1, ← h1.1.2, ← h1.2]
        exact ⟨hw, hk, by simp⟩
      · rw [pm_pure_iff, Prod.mk.injEq, Prod.mk.injEq] at h1
        rw [← h1.1.1, ← h1.1.2, ← h1.2]
        refine ⟨hw, hk, fun p hp => ?_⟩
        simp only [Option.map_some, Option.some.injEq] at hp
        subst hp
        exact hk
    | ext a =>
      simp only [ProverOps.getProver] at h
      obtain ⟨⟨q?, s'⟩, w1, h1, h⟩ := pm_bind.mp h
      rw [pm_pure_iff, Prod.mk.injEq, Prod.mk.injEq] at h
      rw [← h.1.1, ← h.1.2, ← h.2]
      simp only [ExtProver.getProver] at h1
      rw [pm_getStore_bind, pm_setStore_bind] at h1
      rw [pm_pure_iff, Prod.mk.injEq, Prod.mk.injEq] at h1
      rw [← h1.1.1, ← h1.1.2, ← h1.2]
      refine ⟨by show updateSecretValues w.store d = σ; rw [hw, hσ], ⟨rfl, rfl⟩, fun p hp => ?_⟩
      simp only [Option.map_some, Option.some.injEq] at hp
      subst hp
      exact ⟨rfl, rfl⟩
  precommit p p' v w w' h := by
    cases p with
    | dlrep p =>
      simp only [ProverOps.precommit, pm_pure_iff, Prod.mk.injEq] at h
      rw [← h.1.2]
      exact leafKept_refl σ d _
    | ext p =>
      simp only [ProverOps.precommit] at h
      obtain ⟨⟨v1, p1⟩, w1, h1, h⟩ := pm_bind.mp h
      rw [pm_pure_iff, Prod.mk.injEq, Prod.mk.injEq] at h
      rw [← h.1.2]
      simp only [ExtProver.precommit] at h1
      obtain ⟨v2, w2, _, h1⟩ := pm_bind.mp h1
      rw [pm_getStore_bind, pm_liftE_bind_iff] at h1
      obtain ⟨s', h2, h1⟩ := h1
      rw [pm_liftE_bind_iff] at h1
      obtain ⟨t, _, h1⟩ := h1
      obtain ⟨⟨cp, t'⟩, w3, _, h1⟩ := pm_bind.mp h1
      rw [pm_pure_iff, Prod.mk.injEq, Prod.mk.injEq] at h1
      rw [← h1.1.2]
      obtain ⟨h3, h4⟩ := leafKept_of_construct (σ := σ) (d := d) h2
      exact ⟨h3, h4⟩
  commit p p' d' v w w' h := by
    cases p with
    | dlrep p =>
      simp only [ProverOps.internalCommit] at h
      obtain ⟨⟨v1, p1⟩, w1, h1, h⟩ := pm_bind.mp h
      rw [pm_pure_iff, Prod.mk.injEq, Prod.mk.injEq] at h
      rw [← h.1.2]
      simp only [DLRepProver.internalCommit] at h1
      obtain ⟨d', w2, _, h1⟩ := pm_bind.mp h1
      rw [pm_getStore_bind, pm_liftE_bind_iff] at h1
      obtain ⟨ks, _, h1⟩ := h1
      rw [pm_liftE_bind_iff] at h1
      obtain ⟨com, _, h1⟩ := h1
      rw [pm_pure_iff, Prod.mk.injEq, Prod.mk.injEq] at h1
      rw [← h1.1.2]
      exact leafKept_refl σ d _
    | ext p =>
      simp only [ProverOps.internalCommit] at h
      obtain ⟨⟨v1, p1⟩, w1, h1, h⟩ := pm_bind.mp h
      rw [pm_pure_iff, Prod.mk.injEq, Prod.mk.injEq] at h
      rw [← h.1.2]
      simp only [ExtProver.internalCommit] at h1
      cases hc : p.stmt.constructed with
      | none => simp only [hc] at h1; exact (raise_ne.mp h1).elim
      | some t =>
        simp only [hc] at h1
        cases hp : p.constructed with
        | none => simp only [hp] at h1; exact (raise_ne.mp h1).elim
        | some cp =>
          simp only [hp] at h1
          obtain ⟨⟨v2, cp'⟩, w2, _, h1⟩ := pm_bind.mp h1
          rw [pm_pure_iff, Prod.mk.injEq, Prod.mk.injEq] at h1
          rw [← h1.1.2]
          exact leafKept_refl σ d _
  fresh l := by
    cases l with
    | dlrep s => exact leafKept_refl σ d _
    | ext a => exact ⟨rfl, rfl⟩
  process σ' l l' v h := by
    cases l with
    | dlrep s =>
      have h' : (Except.ok (Leaf.dlrep s) : Except Err (Leaf E)) = .ok l' := h
      cases h'
      exact leafKept_refl σ d _
    | ext a =>
      have h' : (Ext.process σ' a v).map Leaf.ext = .ok l' := h
      cases hx : Ext.process σ' a v with
      | error e => rw [hx] at h'; cases h'
      | ok b =>
        rw [hx] at h'
        cases h'
        simp only [Ext.process] at hx
        obtain ⟨b', h1, hx⟩ := bind_ok_iff.mp hx
        injection hx with hx
        subst hx
        obtain ⟨h2, h3⟩ := leafKept_of_construct (σ := σ) (d := d) h1
        exact ⟨h2, h3⟩

/-- Helper: what is needed of leaves holds of the later leaf in the later heap. -/
theorem libLeaf_later {q : Nat} {σ σ' : Store} {d : Dict Int} {Priv : Sec → Prop} {b : Bool} {l l' : Leaf E}
    (h : LibLeaf q σ d Priv b l) (hk : LeafKept σ d l l') (hda : ∀ e ∈ d, ¬ Priv e.1) (hname : σ'.name = σ.name)
    (hv : ∀ x, ¬ Priv x → σ'.key x = σ.key x) : LibLeaf q σ' d Priv b l' := by
  have hval : ∀ x, ¬ Priv x → σ'.value x = σ.value x := by
    intro x hx
    have := hv x hx
    simp only [Store.key, Prod.mk.injEq] at this
    exact this.2
  cases h with
  | rep s h h' hq hpriv htrue =>
    cases l' with
    | ext _ => exact hk.elim
    | dlrep s' =>
      obtain ⟨k1, k2, k3, _, k5, k6⟩ := hk
      have hkeys : ∀ e ∈ s'.secretValues, ¬ Priv e.1 := k5 (fun x => ¬ Priv x) hda fun e he =>
        hpriv e.1 (.inr (List.mem_map_of_mem he))
      have hterms : terms (Tree.leaf s') = terms (Tree.leaf s) := by simp only [terms, k2, k3]
      refine .rep s' ?_ ?_ ?_ ?_ ?_
      · simp only [Solid, k1, k2, k3] at h ⊢; exact h
      · intro x p hx; exact h' x p (hterms ▸ hx)
      · intro x p hx; exact hq x p (hterms ▸ hx)
      · rintro x (hx | hx)
        · exact hpriv x (.inl (k3 ▸ hx))
        · obtain ⟨e, he, rfl⟩ := List.mem_map.mp hx
          exact hkeys e he
      · intro hb
        have hs := htrue hb
        cases hs with
        | rep _ hg hh =>
          cases hh with
          | rep _ _ hgrp heq =>
            refine .rep s' (fun x hx => ?_) (.rep s' _ ?_ ?_)
            · have hx' : x ∈ s.secretVars := k3 ▸ hx
              have hxp := hpriv x (.inl hx')
              have : given σ' d s' x = given σ d s' x := by
                unfold given
                rw [get?_same (S := fun x => ¬ Priv x) hv hda hxp, get?_same (S := fun x => ¬ Priv x) hv hkeys hxp]
              rw [this, k6, hg x hx', hv x hxp]
            · rw [k1, k2]; exact hgrp
            · rw [k1, k2, k3, heq]
              have : ∀ x ∈ s.secretVars, σ'.key x = σ.key x := fun x hx => hv x (hpriv x (.inl hx))
              congr 1
              generalize s.secretVars = xs at this
              generalize s.bases = bs
              induction xs generalizing bs with
              | nil => rfl
              | cons x xs ih =>
                cases bs with
                | nil => rfl
                | cons p bs =>
                  simp only [List.zipWith_cons_cons]
                  rw [this x (by simp), ih (fun y hy => this y (by simp [hy]))]
  | notEqual s a ha hq h0 hgrp htor hpriv hab htrue =>
    cases l' with
    | dlrep _ => exact hk.elim
    | ext a' =>
      refine .notEqual s a' (hk.1.trans ha) hq h0 hgrp htor hpriv hab fun hb => ?_
      rw [hval _ hpriv.2.2]; exact htrue hb
  | range s a ha hq h0 hgrp htor hn hpriv hnames hin htrue =>
    cases l' with
    | dlrep _ => exact hk.elim
    | ext a' =>
      refine .range s a' (hk.1.trans ha) hq h0 hgrp htor hn hpriv (by rw [hname]; exact hnames) ?_ ?_
      · rw [hval _ hpriv.2.1]; exact hin
      · rw [hval _ hpriv.2.1, hval _ hpriv.2.2]; exact htrue
  | signature P s gen a ha hq h0 hP hk' htor hh0 h3 hfit hpriv hnd htrue =>
    cases l' with
    | dlrep _ => exact hk.elim
    | ext a' =>
      refine .signature P s gen a' (hk.1.trans ha) hq h0 hP hk' htor hh0 h3 hfit hpriv hnd fun hb => ?_
      obtain ⟨sig, ms, h1, h2, h3⟩ := htrue hb
      refine ⟨sig, ms, h1, h2, ?_⟩
      rw [← h3]
      exact List.map_congr_left fun y hy => hval y (hpriv.2 y hy)

section
variable {R : Leaf E → Leaf E → Prop}

/-- Helper. -/
theorem every_later {Q Q' : Leaf E → Prop} (hR : ∀ l l', R l l' → Q l → Q' l') {t : Stmt E} (h : EveryLeaf Q t) :
    ∀ t', TRel R t t' → EveryLeaf Q' t' := by
  have ne : ∀ {ts us : List (Stmt E)}, TRelL R ts us → ts ≠ [] → us ≠ [] := by
    intro ts us h hne e
    have := (trelL_iff.mp h).1
    rw [e] at this
    exact hne (List.length_eq_zero_iff.mp this.symm)
  induction h with
  | leaf l hl =>
    intro t' ht
    cases t' with
    | leaf l' => exact .leaf l' (hR l l' ht hl)
    | and _ _ => exact ht.elim
    | or _ _ => exact ht.elim
  | all b ts hne hs ih =>
    intro t' ht
    cases t' with
    | leaf _ => exact ht.elim
    | or _ _ => exact ht.elim
    | and b' us =>
      refine .all _ _ (ne ht.2 hne) fun u hu => ?_
      obtain ⟨t, h1, h2⟩ := trelL_mem ht.2 hu
      exact ih t h1 u h2
  | any b ts hne hs ih =>
    intro t' ht
    cases t' with
    | leaf _ => exact ht.elim
    | and _ _ => exact ht.elim
    | or b' us =>
      refine .any _ _ (ne ht.2 hne) fun u hu => ?_
      obtain ⟨t, h1, h2⟩ := trelL_mem ht.2 hu
      exact ih t h1 u h2

/-- Helper: clauses without a mark had none before, and other clauses than representations keep theirs. -/
theorem simulated_later {σ : Store} {d : Dict Int} {t t' : Stmt E} (h : TRel (LeafKept σ d) t t') :
    (t'.simulated = false → t.simulated = false) ∧
    ((∀ s, t ≠ .leaf (.dlrep s)) → t'.simulated = t.simulated ∧ ∀ s, t' ≠ .leaf (.dlrep s)) := by
  cases t <;> cases t' <;> first | exact h.elim | skip
  · rename_i l l'
    cases l <;> cases l' <;> first | exact h.elim | skip
    · rename_i s s'
      refine ⟨fun hs => ?_, fun hn => (hn _ rfl).elim⟩
      cases hb : s.simulated with
      | false => exact hb
      | true =>
        have := h.2.2.2.1 hb
        have hs' : s'.simulated = false := hs
        rw [this] at hs'
        cases hs'
    · rename_i a a'
      have e : a'.simulated = a.simulated := h.2
      refine ⟨fun hs => ?_, fun _ => ⟨e, fun s => by simp⟩⟩
      show a.simulated = false
      rw [← e]; exact hs
  · have e := h.1
    subst e
    exact ⟨id, fun _ => ⟨rfl, fun s => by simp⟩⟩
  · have e := h.1
    subst e
    exact ⟨id, fun _ => ⟨rfl, fun s => by simp⟩⟩

/-- Helper: what may be proved may be proved later. -/
theorem proved_later {σ : Store} {d : Dict Int} {Q Q' : Leaf E → Prop} (hR : ∀ l l', LeafKept σ d l l' → Q l → Q' l')
    {t : Stmt E} (h : ProvedLeaf Q t) : ∀ t', Sturdy t → TRel (LeafKept σ d) t t' → ProvedLeaf Q' t' := by
  induction h with
  | leaf l hl =>
    intro t' _ ht
    cases t' with
    | leaf l' => exact .leaf l' (hR l l' ht hl)
    | and _ _ => exact ht.elim
    | or _ _ => exact ht.elim
  | all ts hs ih =>
    intro t' hst ht
    cases t' with
    | leaf _ => exact ht.elim
    | or _ _ => exact ht.elim
    | and b' us =>
      have e := ht.1
      subst e
      cases hst with
      | all _ _ hst =>
        refine .all _ fun u hu => ?_
        obtain ⟨t, h1, h2⟩ := trelL_mem ht.2 hu
        exact ih t h1 u (hst t h1) h2
  | any ts hex hs ih =>
    intro t' hst ht
    cases t' with
    | leaf _ => exact ht.elim
    | and _ _ => exact ht.elim
    | or b' us =>
      have e := ht.1
      subst e
      cases hst with
      | any _ _ hex' hst =>
        refine .any _ ?_ fun u hu hm => ?_
        · obtain ⟨t, h1, h2, h3⟩ := hex'
          obtain ⟨i, hi⟩ := List.mem_iff_getElem?.mp h1
          obtain ⟨u, hu, hr⟩ := trelL_nth ht.2 hi
          exact ⟨u, List.mem_of_getElem? hu, by rw [((simulated_later hr).2 h3).1, h2]⟩
        · obtain ⟨t, h1, h2⟩ := trelL_mem ht.2 hu
          have hm' := (simulated_later h2).1 hm
          exact ih t h1 hm' u (hst t h1 hm') h2

/-- Helper. -/
theorem sturdy_later {σ : Store} {d : Dict Int} {t : Stmt E} (h : Sturdy t) : ∀ t', TRel (LeafKept σ d) t t' →
    Sturdy t' := by
  induction h with
  | leaf l =>
    intro t' ht
    cases t' with
    | leaf l' => exact .leaf l'
    | and _ _ => exact ht.elim
    | or _ _ => exact ht.elim
  | all b ts hs ih =>
    intro t' ht
    cases t' with
    | leaf _ => exact ht.elim
    | or _ _ => exact ht.elim
    | and b' us =>
      refine .all _ _ fun u hu => ?_
      obtain ⟨t, h1, h2⟩ := trelL_mem ht.2 hu
      exact ih t h1 u h2
  | any b ts hex hs ih =>
    intro t' ht
    cases t' with
    | leaf _ => exact ht.elim
    | and _ _ => exact ht.elim
    | or b' us =>
      refine .any _ _ ?_ fun u hu hm => ?_
      · obtain ⟨t, h1, h2, h3⟩ := hex
        obtain ⟨i, hi⟩ := List.mem_iff_getElem?.mp h1
        obtain ⟨u, hu, hr⟩ := trelL_nth ht.2 hi
        obtain ⟨k1, k2⟩ := (simulated_later hr).2 h3
        exact ⟨u, List.mem_of_getElem? hu, by rw [k1, h2], k2⟩
      · obtain ⟨t, h1, h2⟩ := trelL_mem ht.2 hu
        exact ih t h1 ((simulated_later h2).1 hm) u h2

end

/-- Helper: what is needed before each call. -/
structure Reusable (q : Nat) (Priv : Sec → Prop) (d : Dict Int) (t : Stmt E) (σ : Store) : Prop where
  ht : ∀ s, t ≠ .leaf (.dlrep s)
  all : EveryLeaf (LibLeaf q (updateSecretValues σ d) d Priv false) t
  proved : ProvedLeaf (LibLeaf q (updateSecretValues σ d) d Priv true) t
  sep : Separate (libProfile Priv) t
  tidy : Tidy (libProfile Priv) σ.name t
  uniq : d.Uniq (updateSecretValues σ d)
  args : ∀ e ∈ d, ¬ Priv e.1
  named : Named (libProfile Priv) σ.name t
  sturdy : Sturdy t

/-- Helper: it is still there when leaves have changed as they may, in a heap where no secrets of the caller have. -/
theorem reusable_later {q : Nat} {Priv : Sec → Prop} {d : Dict Int} {t t' : Stmt E} {σ σ' : Store}
    (h : Reusable q Priv d t σ) (hr : TRel (LeafKept (updateSecretValues σ d) d) t t')
    (hb : Tree.blank t' = Tree.blank t) (hname : σ'.name = σ.name)
    (hv' : ∀ x, ¬ Priv x → (updateSecretValues σ' d).key x = (updateSecretValues σ d).key x) :
    Reusable q Priv d t' σ' := by
  have hn' : (updateSecretValues σ' d).name = (updateSecretValues σ d).name := by
    rw [updateSecretValues_name, updateSecretValues_name, hname]
  refine ⟨fun s e => ?_, ?_, ?_, separate_blank _ h.sep _ hb, ?_, ?_, h.args, ?_, sturdy_later h.sturdy _ hr⟩
  · exact (((simulated_later hr).2 h.ht).2 s) e
  · exact every_later (fun l l' hk hl => libLeaf_later hl hk h.args hn' hv') h.all _ hr
  · exact proved_later (fun l l' hk hl => libLeaf_later hl hk h.args hn' hv') h.proved _ h.sturdy hr
  · rw [hname]; exact tidy_blank _ h.tidy _ hb
  · exact uniq_same (S := fun x => ¬ Priv x) hv' h.args h.uniq
  · intro x y hx hy
    rw [hname]
    exact h.named x y (atLeaf_blank (leafOccurs_blank _) hx _ hb.symm) (atLeaf_blank (leafOccurs_blank _) hy _ hb.symm)

/-- Helper. -/
theorem every_iff_has {Q : Leaf E → Prop} {t : Stmt E} (h : EveryLeaf Q t) : ∀ l, HasLeaf l t → Q l := by
  induction h with
  | leaf l hl => intro l' h'; cases h'; exact hl
  | all b subs _ _ ih =>
    intro l h'
    cases h' with
    | all _ _ t ht h' => exact ih t ht l h'
  | any b subs _ _ ih =>
    intro l h'
    cases h' with
    | any _ _ t ht h' => exact ih t ht l h'

/-- Helper: one call of `prove()`. -/
theorem reuse_prove {q : Nat} {Priv : Sec → Prop} {env : Env E} {d : Dict Int} {t : Stmt E} {σ : Store}
    (h : Reusable q Priv d t σ) (rng : Nat → Nat) (msg : String) :
    ∃ nizk t' w', prove (LeafProver E) env t d msg ⟨σ, rng⟩ = .ok ((nizk, t'), w') ∧
      Reusable q Priv d t' w'.store ∧ (verify env w'.store t' nizk msg = .ok true ∨
        (∃ s : NotEqual E, Uses s.spec t) ∧ verify env w'.store t' nizk msg = .error .validation) := by
  have htidy' : Tidy (libProfile Priv) (updateSecretValues σ d).name t := by
    rw [updateSecretValues_name]; exact h.tidy
  have hr := ready_lib (N := ∃ s : NotEqual E, Uses s.spec t) (fun s hs => ⟨s, hs⟩) h.all h.proved h.sep htidy' h.uniq
    h.args (told_of_uniq h.uniq)
  obtain ⟨nizk, t', w', h1, hname, hb, hkeys, h3, k1, k2⟩ := self_general (libProfile Priv) q _ env t d ⟨σ, rng⟩ msg
    h.ht hr h.named fun σ' _ hk => by
      exact every_mono h.all fun l _ hl => lib_self hl fun x hx => hk x fun hw => hx (priv_of_writes hw)
  have hv' : ∀ x, ¬ Priv x → (updateSecretValues w'.store d).key x = (updateSecretValues σ d).key x := by
    intro x hx
    have := hkeys x fun hw => hx (priv_of_writes hw)
    simp only [Store.key, Prod.mk.injEq] at this ⊢
    refine ⟨by rw [updateSecretValues_name, updateSecretValues_name, hname], ?_⟩
    by_cases hd : x ∈ d.map Prod.fst
    · exact (updateSecretValues_value d _ _ x).1 hd
    · rw [(updateSecretValues_value d w'.store w'.store x).2 hd]
      exact this.2
  refine ⟨nizk, t', w', h1, reusable_later h ?_ hb hname hv', ?_⟩
  · have heap : prove (LeafProver E) env t d msg ⟨updateSecretValues σ d, rng⟩ = .ok ((nizk, t'), w') := by
      rw [← h1]
      have : (PTree.getProver t d : PM (Option (StmtProver E) × Stmt E)) ⟨updateSecretValues σ d, rng⟩ =
          PTree.getProver t d ⟨σ, rng⟩ := by
        cases t with
        | leaf l =>
          cases l with
          | dlrep s => exact (h.ht s rfl).elim
          | ext a =>
            simp only [PTree.getProver, ProverOps.getProver, ExtProver.getProver]
            show _ = _
            simp only [bind_assoc]
            rw [pm_getStore_bind, pm_setStore_bind, pm_getStore_bind, pm_setStore_bind]
            simp only [updateSecretValues_idem]
        | and b subs =>
          simp only [PTree.getProver]
          rw [pm_getStore_bind, pm_setStore_bind, pm_getStore_bind, pm_setStore_bind]
          simp only [updateSecretValues_idem]
        | or b subs =>
          simp only [PTree.getProver]
          rw [pm_getStore_bind, pm_setStore_bind, pm_getStore_bind, pm_setStore_bind]
          simp only [updateSecretValues_idem]
      show (prove (LeafProver E) env t d msg) _ = _
      unfold prove
      show StateT.bind _ _ _ = StateT.bind _ _ _
      simp only [StateT.bind, this]
    refine prove_rel (reuseLeaf (updateSecretValues_idem σ d)) (fun l hl => ?_) rfl heap
    obtain ⟨b, hl⟩ : ∃ b, LibLeaf q (updateSecretValues σ d) d Priv b l := ⟨false, (every_iff_has h.all) l hl⟩
    cases l with
    | dlrep s => trivial
    | ext a =>
      obtain ⟨hs, _⟩ := lib_sound (N := True) hl fun _ _ _ _ => trivial
      intro w w' v hw hsim
      obtain ⟨v1, w1, k, e1, e2, _⟩ := (hs.resolve_left id) w hw
      rw [hsim] at e1
      cases e1
      exact e2
  · rcases fullValidate_lib h3 with e | ⟨hN, e⟩
    · exact .inl (k1 (valid_of_full h3 e))
    · exact .inr ⟨hN, k2 _ e⟩

/-- **C32** What remains, with disjunctions: a statement object composed of statements of the library, as in
`C66_complete`, in which every disjunction has a clause that is not marked and not a bare representation, can be used
any number of times: after every history of calls of `prove()` with the same dictionary and of `verify()`, the next
call of `prove()` succeeds, and the object accepts the proof (or raises `ValidationError`, with inequality proofs).
Missing: disjunctions of bare representations only, see `C32_or_used_up`. -/
theorem C32_reuse_partial (q : Nat) (Priv : Sec → Prop) (env : Env E) (t : Stmt E) (d : Dict Int) (σ : Store)
    (ht : ∀ s, t ≠ .leaf (.dlrep s)) (hall : EveryLeaf (LibLeaf q (updateSecretValues σ d) d Priv false) t)
    (hproved : ProvedLeaf (LibLeaf q (updateSecretValues σ d) d Priv true) t)
    (hsep : Separate (libProfile Priv) t) (htidy : Tidy (libProfile Priv) σ.name t)
    (hd : d.Uniq (updateSecretValues σ d)) (hda : ∀ e ∈ d, ¬ Priv e.1) (hn : Named (libProfile Priv) σ.name t)
    (hst : Sturdy t) (t1 : Stmt E) (σ1 : Store) (hist : History env d t σ t1 σ1) (rng : Nat → Nat) (msg : String) :
    ∃ nizk t2 w2, prove (LeafProver E) env t1 d msg ⟨σ1, rng⟩ = .ok ((nizk, t2), w2) ∧
      (verify env w2.store t2 nizk msg = .ok true ∨
        (∃ s : NotEqual E, Uses s.spec t) ∧ verify env w2.store t2 nizk msg = .error .validation) := by
  have inv : ∀ (t t1 : Stmt E) (σ σ1 : Store), History env d t σ t1 σ1 → Reusable q Priv d t σ →
      Reusable q Priv d t1 σ1 ∧ Tree.blank t1 = Tree.blank t := by
    intro t t1 σ σ1 hist h0
    induction hist with
    | none σ => exact ⟨h0, rfl⟩
    | prove t1 t2 σ σ1 w2 rng msg nizk h hp ih =>
      obtain ⟨nizk', t2', w2', h1, h2, _⟩ := reuse_prove (env := env) (ih h0).1 rng msg
      have hb := prove_keeps keepLeaf hp
      rw [hp] at h1
      cases h1
      exact ⟨h2, hb.trans (ih h0).2⟩
    | verify t1 t2 σ σ1 v h hv ih =>
      obtain ⟨i1, i2⟩ := ih h0
      have K := reuseLeaf (E := E) (updateSecretValues_idem σ1 d)
      have hr : TRel (LeafKept (updateSecretValues σ1 d) d) (Tree.freshVerifier t1) t2 := by
        unfold digestPrecommitment at hv
        split at hv
        · cases hv; exact trel_refl K.refl _
        · exact process_rel K σ1 _ _ _ hv
      have hr' := trel_trans K.trans _ _ _ (fresh_rel K t1) hr
      have hb : Tree.blank t2 = Tree.blank t1 := by
        unfold digestPrecommitment at hv
        split at hv
        · cases hv; exact fresh_keeps keepLeaf t1
        · exact (process_keeps keepLeaf σ1 _ _ _ hv).trans (fresh_keeps keepLeaf t1)
      exact ⟨reusable_later i1 hr' hb rfl fun _ _ => rfl, hb.trans i2⟩
  replace inv := inv t t1 σ σ1 hist ⟨ht, hall, hproved, hsep, htidy, hd, hda, hn, hst⟩
  obtain ⟨nizk, t2, w2, h1, _, h2⟩ := reuse_prove (env := env) inv.1 rng msg
  refine ⟨nizk, t2, w2, h1, h2.imp_right fun ⟨⟨s, a, ha, hl⟩, h⟩ => ⟨⟨s, ?_⟩, h⟩⟩
  obtain ⟨l, k1, k2⟩ := hasLeaf_blank hl inv.2
  cases l with
  | dlrep _ => simp [Blank.blank] at k2
  | ext b =>
    simp only [Blank.blank, Leaf.ext.injEq, Ext.mk.injEq, and_true] at k2
    exact ⟨b, k2 ▸ ha, k1⟩

/-- `exLib`, a disjunction whose clause that is not marked is a conjunction, can be proved again and again, for every
hash function and all random numbers: here the third proof, where the object has verified the first. -/
example (env : Env (ZMod 7)) (rng rng' rng'' : Nat → Nat) : ∃ n1 t1 w1 n2 t2 w2,
    prove (LeafProver (ZMod 7)) env exLib [(1, 3)] "a" ⟨exLibStore, rng⟩ = .ok ((n1, t1), w1) ∧
    prove (LeafProver (ZMod 7)) env t1 [(1, 3)] "b" ⟨w1.store, rng'⟩ = .ok ((n2, t2), w2) ∧
    ∀ t3, digestPrecommitment w2.store (Tree.freshVerifier t2) n1.precommitment = .ok t3 → ∃ n4 t4 w4,
      prove (LeafProver (ZMod 7)) env t3 [(1, 3)] "c" ⟨w2.store, rng''⟩ = .ok ((n4, t4), w4) ∧
      (verify env w4.store t4 n4 "c" = .ok true ∨
        (∃ s : NotEqual (ZMod 7), Uses s.spec exLib) ∧ verify env w4.store t4 n4 "c" = .error .validation) := by
  obtain ⟨h1, h2, h3, h4, h5, h6, h7, _, h8, _⟩ := exLib_meets
  have hst : Sturdy exLib := by
    refine .any _ _ ⟨.and false [exLibNe.stmt, exThree.stmt], by simp, rfl, fun s => by simp⟩ fun t ht hs => ?_
    simp only [List.mem_cons, List.not_mem_nil, or_false] at ht
    rcases ht with rfl | rfl
    · exact .leaf _
    · refine .all _ _ fun t ht => ?_
      simp only [List.mem_cons, List.not_mem_nil, or_false] at ht
      rcases ht with rfl | rfl <;> exact .leaf _
  have key := C32_reuse_partial 7 exLibPriv env exLib [(1, 3)] exLibStore (fun s => h1 _) h2 h3 h4 h5 h6 h7 h8 hst
  obtain ⟨n1, t1, w1, k1, _⟩ := key _ _ (.none _ _) rng "a"
  have hi1 := History.prove (env := env) _ _ _ _ _ _ _ _ _ (.none _ _) k1
  obtain ⟨n2, t2, w2, k2, _⟩ := key _ _ hi1 rng' "b"
  have hi2 := History.prove (env := env) _ _ _ _ _ _ _ _ _ hi1 k2
  exact ⟨n1, t1, w1, n2, t2, w2, k1, k2, fun t3 hv => key _ _ (.verify _ _ _ _ _ _ hi2 hv) rng'' "c"⟩

end Zksk.Props
