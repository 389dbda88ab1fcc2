import Verif.SpecExt
import Verif.Lemmas.State
import Verif.Lemmas.Select
import Verif.Lemmas.CoreComplete

/-! Invariants of the heap: what no step changes stays as it is. -/

set_option linter.unusedSectionVars false

namespace Zksk

open Spec

variable {E : Type} [AddCommGroup E] [DecidableEq E]

/-- The computation keeps the invariant `J` of the heap. -/
def Frame (J : Store → Prop) {α : Type} (m : PM α) : Prop :=
  ∀ w a w', J w.store → m w = .ok (a, w') → J w'.store

section
variable {J : Store → Prop} {α β : Type}

theorem frame_pure (a : α) : Frame J (pure a : PM α) := by
  intro w b w' hw h
  rw [pm_pure_iff, Prod.mk.injEq] at h
  rw [← h.2]; exact hw

theorem frame_raise (e : Err) : Frame J (raise e : PM α) := fun _ _ _ _ h => (raise_ne.mp h).elim

theorem frame_liftE (x : Except Err α) : Frame J (liftE x) := by
  intro w b w' hw h
  rw [liftE_iff] at h
  obtain ⟨_, rfl⟩ := h
  exact hw

theorem frame_getStore : Frame J getStore := by
  intro w b w' hw h
  rw [getStore_iff, Prod.mk.injEq] at h
  rw [← h.2]; exact hw

theorem frame_draw (m : Nat) : Frame J (draw m) := by
  intro w b w' hw h
  rw [(draw_ok h).2.2.2]; exact hw

theorem frame_bind' {x : PM α} {f : α → PM β} (hx : Frame J x)
    (hf : ∀ w a w', x w = .ok (a, w') → Frame J (f a)) : Frame J (x >>= f) := by
  intro w b w' hw h
  obtain ⟨a, w1, h1, h2⟩ := pm_bind.mp h
  exact hf _ _ _ h1 _ _ _ (hx _ _ _ hw h1) h2

theorem frame_bind {x : PM α} {f : α → PM β} (hx : Frame J x) (hf : ∀ a, Frame J (f a)) : Frame J (x >>= f) :=
  frame_bind' hx fun _ a _ _ => hf a

theorem frame_update {d : Dict Int} (hup : ∀ σ, J σ → J (updateSecretValues σ d)) {f : Unit → PM β}
    (hf : Frame J (f ())) : Frame J (getStore >>= fun σ => setStore (updateSecretValues σ d) >>= f) := by
  intro w b w' hw h
  rw [pm_getStore_bind, pm_setStore_bind] at h
  exact hf ⟨updateSecretValues w.store d, w.rng⟩ _ _ (hup _ hw) h

end

section
variable {J : Store → Prop} {L : Type} [StmtOps E L]

theorem frame_drawDict : ∀ l : Dict Nat, Frame J (Tree.drawDict l)
  | [] => frame_pure _
  | (u, m) :: l => by
    unfold Tree.drawDict
    exact frame_bind (frame_draw _) fun _ => frame_bind (frame_drawDict l) fun _ => frame_pure _

theorem frame_updateRandomizersWith {vars : Except Err (List Sec)} {g : PM (Dict Int)} (hg : Frame J g)
    (d : Option (Dict Int)) : Frame J (Tree.updateRandomizersWith vars g d) := by
  cases d with
  | none => exact hg
  | some d =>
    unfold Tree.updateRandomizersWith
    refine frame_bind frame_getStore fun σ => frame_bind (frame_liftE _) fun vs => ?_
    split
    · exact frame_bind hg fun _ => frame_pure _
    · exact frame_pure _

theorem frame_updateRandomizers (t : Tree L) (d : Option (Dict Int)) : Frame J (Tree.updateRandomizers t d) := by
  refine frame_updateRandomizersWith ?_ d
  exact frame_bind frame_getStore fun σ => frame_bind (frame_liftE _) fun _ => frame_bind (frame_liftE _) fun _ =>
    frame_drawDict _

theorem frame_challengeOrDraw (c : Option Int) : Frame J (Tree.challengeOrDraw c) := by
  cases c with
  | none => unfold Tree.challengeOrDraw getRandomNum; exact frame_draw _
  | some c => exact frame_pure _

theorem frame_simulate (hl : ∀ (l : L) d c, Frame J (StmtOps.simulate l d c : PM (Sim E))) :
    ∀ (t : Tree L) d c, Frame J (Tree.simulate t d c : PM (Sim E)) := by
  intro t
  induction t using Tree.ind with
  | leaf l => exact hl l
  | and s subs ih =>
    intro d c
    have loop : ∀ ts : List (Tree L), (∀ t ∈ ts, ∀ d c, Frame J (Tree.simulate t d c : PM (Sim E))) → ∀ d c,
        Frame J (Tree.simulateAnd ts d c : PM (List (Sim E))) := by
      intro ts
      induction ts with
      | nil => intro _ d c; unfold Tree.simulateAnd; exact frame_pure _
      | cons t ts iht =>
        intro h d c
        unfold Tree.simulateAnd
        exact frame_bind (h t (by simp) _ _) fun _ => frame_bind (iht (fun t ht => h t (by simp [ht])) _ _) fun _ =>
          frame_pure _
    unfold Tree.simulate
    exact frame_bind (frame_updateRandomizers _ _) fun _ => frame_bind (frame_challengeOrDraw _) fun _ =>
      frame_bind (loop _ ih _ _) fun _ => frame_pure _
  | or s subs ih =>
    intro d c
    have loop : ∀ ts : List (Tree L), (∀ t ∈ ts, ∀ d c, Frame J (Tree.simulate t d c : PM (Sim E))) → ∀ c acc,
        Frame J (Tree.simulateOr ts c acc : PM (List (Sim E))) := by
      intro ts
      induction ts with
      | nil => intro _ c acc; unfold Tree.simulateOr; exact frame_pure _
      | cons t ts iht =>
        intro h c acc
        cases ts with
        | nil =>
          unfold Tree.simulateOr
          exact frame_bind (h t (by simp) _ _) fun _ => frame_pure _
        | cons t' ts =>
          unfold Tree.simulateOr
          exact frame_bind (h t (by simp) _ _) fun _ => frame_bind (iht (fun t ht => h t (by simp [ht])) _ _) fun _ =>
            frame_pure _
    unfold Tree.simulate
    exact frame_bind (frame_challengeOrDraw _) fun _ => frame_bind (loop _ ih _ _) fun _ => frame_pure _

theorem frame_simulate_dlrep (s : DLRep E) (d : Option (Dict Int)) (c : Option Int) :
    Frame J (StmtOps.simulate s d c : PM (Sim E)) := by
  have hall : ∀ (m : Nat) (l : List Sec), Frame J (DLRep.drawAll m l) := by
    intro m l
    induction l with
    | nil => exact frame_pure _
    | cons x l ih => unfold DLRep.drawAll; exact frame_bind (frame_draw _) fun _ => frame_bind ih fun _ => frame_pure _
  have hget : Frame J s.getRandomizers := by
    unfold DLRep.getRandomizers
    cases s.bases with
    | nil => exact frame_raise _
    | cons b bs => exact frame_bind frame_getStore fun _ => hall _ _
  show Frame J (s.simulate d c)
  unfold DLRep.simulate
  exact frame_bind (frame_updateRandomizersWith hget _) fun _ => frame_bind (frame_challengeOrDraw _) fun _ =>
    frame_bind frame_getStore fun _ => frame_bind (frame_liftE _) fun _ => frame_bind (frame_liftE _) fun _ =>
    frame_pure _

theorem frame_simulate_leaf (l : Leaf E) (d : Option (Dict Int)) (c : Option Int) :
    Frame J (StmtOps.simulate l d c : PM (Sim E)) := by
  cases l with
  | dlrep s => exact frame_simulate_dlrep s d c
  | ext e =>
    show Frame J (e.simulate d c)
    unfold Ext.simulate
    exact frame_bind (frame_liftE _) fun _ => frame_bind (frame_simulate frame_simulate_dlrep _ _ _) fun _ =>
      frame_pure _

end

/-! ### Leaves of trees -/

section
variable {L : Type} [Blank L]

theorem hasLeaf_blank {l' : L} {t' : Tree L} (h : HasLeaf l' t') : ∀ {t : Tree L}, Tree.blank t' = Tree.blank t →
    ∃ l, HasLeaf l t ∧ Blank.blank l' = Blank.blank l := by
  have loop : ∀ {subs us : List (Tree L)} {u : Tree L}, u ∈ subs → Tree.blankL subs = Tree.blankL us →
      ∃ v ∈ us, Tree.blank u = Tree.blank v := by
    intro subs us u hu h
    rw [Tree.blankL_eq, Tree.blankL_eq] at h
    have : Tree.blank u ∈ us.map Tree.blank := h ▸ List.mem_map_of_mem hu
    obtain ⟨v, hv, e⟩ := List.mem_map.mp this
    exact ⟨v, hv, e.symm⟩
  induction h with
  | leaf =>
    intro t ht
    cases t with
    | leaf l => simp only [Tree.blank, Tree.leaf.injEq] at ht; exact ⟨l, .leaf, ht⟩
    | and b subs => simp [Tree.blank] at ht
    | or b subs => simp [Tree.blank] at ht
  | all b subs u hu _ ih =>
    intro t ht
    cases t with
    | leaf l => simp [Tree.blank] at ht
    | and b' us =>
      simp only [Tree.blank, Tree.and.injEq, true_and] at ht
      obtain ⟨v, hv, e⟩ := loop hu ht
      obtain ⟨l, h1, h2⟩ := ih e
      exact ⟨l, .all _ _ v hv h1, h2⟩
    | or b subs => simp [Tree.blank] at ht
  | any b subs u hu _ ih =>
    intro t ht
    cases t with
    | leaf l => simp [Tree.blank] at ht
    | or b' us =>
      simp only [Tree.blank, Tree.or.injEq, true_and] at ht
      obtain ⟨v, hv, e⟩ := loop hu ht
      obtain ⟨l, h1, h2⟩ := ih e
      exact ⟨l, .any _ _ v hv h1, h2⟩
    | and b subs => simp [Tree.blank] at ht

/-- Every leaf has the property. -/
def Every (G : L → Prop) (t : Tree L) : Prop := ∀ l, HasLeaf l t → G l

/-- Some leaf has the property. -/
def Has (G : L → Prop) (t : Tree L) : Prop := ∃ l, HasLeaf l t ∧ G l

/-- The property is about what does not change. -/
def Lasting (G : L → Prop) : Prop := ∀ l l', Blank.blank l = Blank.blank l' → G l → G l'

theorem every_blank {G : L → Prop} (hG : Lasting G) {t t' : Tree L} (h : Tree.blank t' = Tree.blank t)
    (ht : Every G t) : Every G t' := by
  intro l' hl
  obtain ⟨l, h1, h2⟩ := hasLeaf_blank hl h
  exact hG _ _ h2.symm (ht l h1)

theorem has_blank {G : L → Prop} (hG : Lasting G) {t t' : Tree L} (h : Tree.blank t' = Tree.blank t)
    (ht : Has G t) : Has G t' := by
  obtain ⟨l, h1, h2⟩ := ht
  obtain ⟨l', h3, h4⟩ := hasLeaf_blank h1 h.symm
  exact ⟨l', h3, hG _ _ h4 h2⟩

end

/-! ### Provers -/

section
variable {L P : Type} [StmtOps E L] [ProverOps E L P] [Blank L] (K : KeepLaws L P) {J : Store → Prop} {d : Dict Int}
  {G D : L → Prop}

/-- The leaves with property `G` keep the invariant `J`, those with `D` can neither be simulated nor proved. -/
structure FrameLaws (P : Type) [ProverOps E L P] (J : Store → Prop) (d : Dict Int) (G D : L → Prop) : Prop where
  lastingG : Lasting G
  lastingD : Lasting D
  update : ∀ σ, J σ → J (updateSecretValues σ d)
  simulate : ∀ (l : L) d c, Frame J (StmtOps.simulate l d c : PM (Sim E))
  prepare : ∀ l, G l → Frame J (StmtOps.prepareSim l : PM L)
  getProver : ∀ l, G l → Frame J (ProverOps.getProver l d : PM (Option P × L))
  precommit : ∀ (l l' : L) (p : P) (w w' : World), G l → ProverOps.getProver l d w = .ok ((some p, l'), w') →
    Frame J (ProverOps.precommit p)
  noPrepare : ∀ (l : L) (w : World), D l → J w.store → ∀ r, (StmtOps.prepareSim l : PM L) w ≠ .ok r
  noPrecommit : ∀ (l l' : L) (p : P) (w w' : World), D l → ProverOps.getProver l d w = .ok ((some p, l'), w') →
    ∀ w, J w.store → ∀ r, ProverOps.precommit p w ≠ .ok r

theorem frame_prepare (F : FrameLaws (L := L) P J d G D) : ∀ t : Tree L, Every G t →
    Frame J (Tree.prepareSim t : PM (Tree L)) := by
  intro t
  have loop : ∀ ts : List (Tree L), (∀ t ∈ ts, Frame J (Tree.prepareSim t : PM (Tree L))) →
      Frame J (Tree.prepareSimL ts : PM (List (Tree L))) := by
    intro ts
    induction ts with
    | nil => intro _; unfold Tree.prepareSimL; exact frame_pure _
    | cons t ts ih =>
      intro h
      unfold Tree.prepareSimL
      exact frame_bind (h t (by simp)) fun _ => frame_bind (ih fun t ht => h t (by simp [ht])) fun _ => frame_pure _
  induction t using Tree.ind with
  | leaf l =>
    intro h
    unfold Tree.prepareSim
    exact frame_bind (F.prepare l (h l .leaf)) fun _ => frame_pure _
  | and s subs ih =>
    intro h
    unfold Tree.prepareSim
    exact frame_bind (loop _ fun t ht => ih t ht fun l hl => h l (.all _ _ t ht hl)) fun _ => frame_pure _
  | or s subs ih =>
    intro h
    unfold Tree.prepareSim
    exact frame_bind (loop _ fun t ht => ih t ht fun l hl => h l (.any _ _ t ht hl)) fun _ => frame_pure _

theorem no_prepare (F : FrameLaws (L := L) P J d G D) : ∀ t : Tree L, Every G t → Has D t → ∀ w : World,
    J w.store → ∀ r, (Tree.prepareSim t : PM (Tree L)) w ≠ .ok r := by
  intro t
  have loop : ∀ ts : List (Tree L), (∀ t ∈ ts, Every G t) → (∀ t ∈ ts, Has D t → ∀ w : World,
      J w.store → ∀ r, (Tree.prepareSim t : PM (Tree L)) w ≠ .ok r) → (∃ t ∈ ts, Has D t) → ∀ w : World,
      J w.store → ∀ r, (Tree.prepareSimL ts : PM (List (Tree L))) w ≠ .ok r := by
    intro ts
    induction ts with
    | nil => rintro _ _ ⟨t, ht, _⟩; cases ht
    | cons t ts ih =>
      rintro hG h ⟨u, hu, hD⟩ w hw r hr
      unfold Tree.prepareSimL at hr
      obtain ⟨a, w1, h1, h2⟩ := pm_bind.mp hr
      obtain ⟨b, w2, h3, _⟩ := pm_bind.mp h2
      rcases List.mem_cons.mp hu with rfl | hu
      · exact h u (by simp) hD w hw _ h1
      · exact ih (fun t ht => hG t (by simp [ht])) (fun t ht => h t (by simp [ht])) ⟨u, hu, hD⟩ w1
          (frame_prepare F t (hG t (by simp)) _ _ _ hw h1) _ h3
  induction t using Tree.ind with
  | leaf l =>
    rintro _ ⟨l', hl, hD⟩ w hw r hr
    cases hl
    unfold Tree.prepareSim at hr
    obtain ⟨a, w1, h1, _⟩ := pm_bind.mp hr
    exact F.noPrepare l w hD hw _ h1
  | and s subs ih =>
    rintro hG ⟨l', hl, hD⟩ w hw r hr
    unfold Tree.prepareSim at hr
    obtain ⟨a, w1, h1, _⟩ := pm_bind.mp hr
    have hG' : ∀ t ∈ subs, Every G t := fun t ht l hl => hG l (.all _ _ t ht hl)
    cases hl with
    | all _ _ u hu hl => exact loop subs hG' (fun t ht => ih t ht (hG' t ht)) ⟨u, hu, l', hl, hD⟩ w hw _ h1
  | or s subs ih =>
    rintro hG ⟨l', hl, hD⟩ w hw r hr
    unfold Tree.prepareSim at hr
    obtain ⟨a, w1, h1, _⟩ := pm_bind.mp hr
    have hG' : ∀ t ∈ subs, Every G t := fun t ht l hl => hG l (.any _ _ t ht hl)
    cases hl with
    | any _ _ u hu hl => exact loop subs hG' (fun t ht => ih t ht (hG' t ht)) ⟨u, hu, l', hl, hD⟩ w hw _ h1

include K

theorem frame_setup (F : FrameLaws (L := L) P J d G D) (idx : Nat) : ∀ (ts : List (Tree L)) (i : Nat),
    (∀ t ∈ ts, Every G t) → Frame J (PTree.setupSimulations idx ts i : PM (List (Tree L) × List (Sim E)))
  | [], i, _ => by unfold PTree.setupSimulations; exact frame_pure _
  | t :: ts, i, h => by
    have ih := frame_setup F idx ts (i + 1) fun t ht => h t (by simp [ht])
    unfold PTree.setupSimulations
    split
    · exact frame_bind ih fun _ => frame_pure _
    · exact frame_bind (frame_prepare F t (h t (by simp))) fun _ => frame_bind (frame_simulate F.simulate _ _ _) fun _ =>
        frame_bind ih fun _ => frame_pure _

theorem no_setup (F : FrameLaws (L := L) P J d G D) (idx : Nat) : ∀ (ts : List (Tree L)) (i : Nat),
    (∀ t ∈ ts, Every G t) → ∀ (j : Nat) (u : Tree L), ts[j]? = some u → i + j ≠ idx → Has D u → ∀ w : World,
    J w.store → ∀ r, (PTree.setupSimulations idx ts i : PM (List (Tree L) × List (Sim E))) w ≠ .ok r
  | [], i, _, j, u, hj, _, _, w, _, r => by simp at hj
  | t :: ts, i, h, j, u, hj, hne, hD, w, hw, r => by
    intro hr
    have ih := no_setup F idx ts (i + 1) fun t ht => h t (by simp [ht])
    unfold PTree.setupSimulations at hr
    split at hr
    · rename_i hi
      obtain ⟨a, w1, h1, _⟩ := pm_bind.mp hr
      cases j with
      | zero => exact hne hi
      | succ j => exact ih j u hj (by omega) hD w hw _ h1
    · obtain ⟨t', w1, h1, hr⟩ := pm_bind.mp hr
      cases j with
      | zero =>
        simp only [List.getElem?_cons_zero, Option.some.injEq] at hj
        subst hj
        exact no_prepare F t (h t (by simp)) hD w hw _ h1
      | succ j =>
        obtain ⟨s, w2, h2, hr⟩ := pm_bind.mp hr
        obtain ⟨a, w3, h3, _⟩ := pm_bind.mp hr
        have j1 := frame_prepare F t (h t (by simp)) _ _ _ hw h1
        have j2 := frame_simulate F.simulate _ _ _ _ _ _ j1 h2
        exact ih j u hj (by omega) hD w2 j2 _ h3

omit K in
theorem frame_orLoop {acts : List (PM (Option (PTree E L P) × Tree L))}
    (ha : ∀ (i : Nat) act, acts[i]? = some act → Frame J act) : ∀ (fuel : Nat) (possible : List Nat)
    (stmts : List (Tree L)), Frame J (PTree.orLoop acts fuel possible stmts)
  | 0, _, _ => by unfold PTree.orLoop; exact frame_pure _
  | fuel + 1, possible, stmts => by
    unfold PTree.orLoop
    split
    · exact frame_pure _
    · refine frame_bind ?_ fun i => ?_
      · unfold PTree.choice
        refine frame_bind (frame_draw _) fun i => ?_
        split
        · exact frame_pure _
        · exact frame_raise _
      · split
        · exact frame_raise _
        · rename_i act hact
          refine frame_bind (ha i act hact) fun x => ?_
          obtain ⟨p?, t'⟩ := x
          cases p? with
          | some p => exact frame_pure _
          | none => exact frame_orLoop ha fuel _ _

theorem frame_getProver (F : FrameLaws (L := L) P J d G D) : ∀ t : Tree L, Every G t →
    Frame J (PTree.getProver t d : PM (Option (PTree E L P) × Tree L)) := by
  intro t
  induction t using Tree.ind with
  | leaf l =>
    intro h
    unfold PTree.getProver
    exact frame_bind (F.getProver l (h l .leaf)) fun _ => frame_pure _
  | and s subs ih =>
    intro h
    have loop : ∀ ts : List (Tree L), (∀ t ∈ ts, Frame J (PTree.getProver t d : PM (Option (PTree E L P) × Tree L))) →
        Frame J (PTree.getProverL ts d : PM (List (Option (PTree E L P)) × List (Tree L))) := by
      intro ts
      induction ts with
      | nil => intro _; unfold PTree.getProverL; exact frame_pure _
      | cons t ts ih =>
        intro h
        unfold PTree.getProverL
        exact frame_bind (h t (by simp)) fun _ => frame_bind (ih fun t ht => h t (by simp [ht])) fun _ => frame_pure _
    unfold PTree.getProver
    refine frame_update F.update ?_
    split
    · exact frame_pure _
    · refine frame_bind (loop subs fun t ht => ih t ht fun l hl => h l (.all _ _ t ht hl)) fun x => ?_
      obtain ⟨ps, subs'⟩ := x
      simp only
      split
      · exact frame_raise _
      · exact frame_pure _
  | or s subs ih =>
    intro h
    have hG : ∀ t ∈ subs, Every G t := fun t ht l hl => h l (.any _ _ t ht hl)
    unfold PTree.getProver
    refine frame_update F.update ?_
    split
    · exact frame_pure _
    · refine frame_bind' (frame_orLoop ?_ _ _ _) fun w x w' hx => ?_
      · intro i act hact
        rw [acts_get] at hact
        cases hi : subs[i]? with
        | none => simp [hi] at hact
        | some t =>
          simp only [hi, Option.map_some, Option.some.injEq] at hact
          subst hact
          exact ih t (List.mem_of_getElem? hi) (hG t (List.mem_of_getElem? hi))
      · obtain ⟨r, subs'⟩ := x
        have hk := (orLoop_keeps (fun t _ => getProver_keeps K d t) _ _ _ _ _ _ _ rfl hx).1
        cases r with
        | none => exact frame_pure _
        | some x =>
          obtain ⟨i, p⟩ := x
          refine frame_bind (frame_setup K F _ _ _ fun t ht => ?_) fun _ => frame_pure _
          obtain ⟨i, hi⟩ := List.getElem?_of_mem ht
          obtain ⟨u, hu, e⟩ := blankL_nth hk.symm hi
          exact every_blank F.lastingG e.symm (hG u (List.mem_of_getElem? hu))

/-- Provers keep the invariant when precommitting. -/
theorem frame_precommit (F : FrameLaws (L := L) P J d G D) : ∀ (t t' : Tree L) (p : PTree E L P) (w w' : World),
    Every G t → PTree.getProver t d w = .ok ((some p, t'), w') → Frame J (PTree.precommit p) := by
  intro t
  induction t using Tree.ind with
  | leaf l =>
    intro t' p w w' h hp
    unfold PTree.getProver at hp
    obtain ⟨⟨p?, l'⟩, w1, h1, h2⟩ := pm_bind.mp hp
    rw [pm_pure_iff, Prod.mk.injEq, Prod.mk.injEq] at h2
    cases p? with
    | none => simp at h2
    | some q =>
      simp only [Option.map_some, Option.some.injEq] at h2
      rw [← h2.1.1]
      unfold PTree.precommit
      exact frame_bind (F.precommit l l' q _ _ (h l .leaf) h1) fun _ => frame_pure _
  | and s subs ih =>
    intro t' p w w' h hp
    have hG : ∀ t ∈ subs, Every G t := fun t ht l hl => h l (.all _ _ t ht hl)
    unfold PTree.getProver at hp
    rw [pm_getStore_bind, pm_setStore_bind] at hp
    split at hp
    · rw [pm_pure_iff] at hp; simp at hp
    · obtain ⟨⟨ps, subs'⟩, w1, h1, h2⟩ := pm_bind.mp hp
      cases hps : PTree.allSome ps with
      | none => simp only [hps] at h2; exact (raise_ne.mp h2).elim
      | some ps' =>
        simp only [hps] at h2
        rw [pm_pure_iff, Prod.mk.injEq, Prod.mk.injEq, Option.some.injEq] at h2
        rw [← h2.1.1]
        have loop : ∀ (us us' : List (Tree L)) (qs : List (Option (PTree E L P))) (qs' : List (PTree E L P))
            (w w' : World), (∀ u ∈ us, u ∈ subs) → PTree.getProverL us d w = .ok ((qs, us'), w') →
            PTree.allSome qs = some qs' → Frame J (PTree.precommitL qs') := by
          intro us
          induction us with
          | nil =>
            intro us' qs qs' w w' _ hq ha
            unfold PTree.getProverL at hq
            rw [pm_pure_iff, Prod.mk.injEq, Prod.mk.injEq] at hq
            rw [← hq.1.1] at ha
            simp only [PTree.allSome, Option.some.injEq] at ha
            rw [← ha]
            unfold PTree.precommitL
            exact frame_pure _
          | cons u us ihu =>
            intro us' qs qs' w w' hm hq ha
            unfold PTree.getProverL at hq
            obtain ⟨⟨p?, u'⟩, w2, g1, hq⟩ := pm_bind.mp hq
            obtain ⟨⟨qs1, us1⟩, w3, g2, hq⟩ := pm_bind.mp hq
            rw [pm_pure_iff, Prod.mk.injEq, Prod.mk.injEq] at hq
            rw [← hq.1.1] at ha
            cases p? with
            | none => simp [PTree.allSome] at ha
            | some q =>
              simp only [PTree.allSome, Option.map_eq_some_iff] at ha
              obtain ⟨qs2, ha, rfl⟩ := ha
              unfold PTree.precommitL
              have hu := hm u (by simp)
              exact frame_bind (ih u hu u' q _ _ (hG u hu) g1) fun _ =>
                frame_bind (ihu us1 qs1 qs2 _ _ (fun v hv => hm v (by simp [hv])) g2 ha) fun _ => frame_pure _
        unfold PTree.precommit
        exact frame_bind (loop subs subs' ps ps' _ _ (fun _ h => h) h1 hps) fun _ => frame_pure _
  | or s subs ih =>
    intro t' p w w' h hp
    have hG : ∀ t ∈ subs, Every G t := fun t ht l hl => h l (.any _ _ t ht hl)
    unfold PTree.getProver at hp
    rw [pm_getStore_bind, pm_setStore_bind] at hp
    split at hp
    · rw [pm_pure_iff] at hp; simp at hp
    · obtain ⟨⟨r, subs'⟩, w1, h1, h2⟩ := pm_bind.mp hp
      cases r with
      | none => simp only [pm_pure_iff] at h2; simp at h2
      | some x =>
        obtain ⟨i, q⟩ := x
        simp only at h2
        obtain ⟨⟨subs'', sims⟩, w2, h3, h2⟩ := pm_bind.mp h2
        rw [pm_pure_iff, Prod.mk.injEq, Prod.mk.injEq, Option.some.injEq] at h2
        rw [← h2.1.1]
        obtain ⟨_, act, wa, wb, u', hact, _, hrun⟩ := (orLoop_cases (J := fun _ => True) (fun _ _ _ _ _ _ _ _ => trivial)
          _ _ _ _ _ _ _ trivial h1).2.2.1 i q rfl
        rw [acts_get] at hact
        cases hi : subs[i]? with
        | none => simp [hi] at hact
        | some u =>
          simp only [hi, Option.map_some, Option.some.injEq] at hact
          subst hact
          have hu := List.mem_of_getElem? hi
          unfold PTree.precommit
          exact frame_bind (ih u hu u' q _ _ (hG u hu) hrun) fun _ => frame_bind (frame_liftE _) fun _ => frame_pure _

/-- No prover of a statement with a leaf that can neither be simulated nor proved succeeds in precommitting. -/
theorem no_precommit (F : FrameLaws (L := L) P J d G D) : ∀ (t t' : Tree L) (p : PTree E L P) (w w' : World),
    Every G t → Has D t → J w.store → PTree.getProver t d w = .ok ((some p, t'), w') →
    ∀ w, J w.store → ∀ r, PTree.precommit p w ≠ .ok r := by
  intro t
  induction t using Tree.ind with
  | leaf l =>
    rintro t' p w w' h ⟨l', hl, hD⟩ _ hp w0 hw0 r hr
    cases hl
    unfold PTree.getProver at hp
    obtain ⟨⟨p?, l'⟩, w1, h1, h2⟩ := pm_bind.mp hp
    rw [pm_pure_iff, Prod.mk.injEq, Prod.mk.injEq] at h2
    cases p? with
    | none => simp at h2
    | some q =>
      simp only [Option.map_some, Option.some.injEq] at h2
      rw [← h2.1.1] at hr
      unfold PTree.precommit at hr
      obtain ⟨a, w2, h3, _⟩ := pm_bind.mp hr
      exact F.noPrecommit l l' q _ _ hD h1 w0 hw0 _ h3
  | and s subs ih =>
    rintro t' p w w' h ⟨l', hl, hD⟩ hw hp w0 hw0 r hr
    have hG : ∀ t ∈ subs, Every G t := fun t ht l hl => h l (.all _ _ t ht hl)
    obtain ⟨u0, hu0, hDu⟩ : ∃ u ∈ subs, Has D u := by
      cases hl with
      | all _ _ u hu hl => exact ⟨u, hu, l', hl, hD⟩
    unfold PTree.getProver at hp
    rw [pm_getStore_bind, pm_setStore_bind] at hp
    split at hp
    · rw [pm_pure_iff] at hp; simp at hp
    · obtain ⟨⟨ps, subs'⟩, w1, h1, h2⟩ := pm_bind.mp hp
      cases hps : PTree.allSome ps with
      | none => simp only [hps] at h2; exact (raise_ne.mp h2).elim
      | some ps' =>
        simp only [hps] at h2
        rw [pm_pure_iff, Prod.mk.injEq, Prod.mk.injEq, Option.some.injEq] at h2
        rw [← h2.1.1] at hr
        have loop : ∀ (us us' : List (Tree L)) (qs : List (Option (PTree E L P))) (qs' : List (PTree E L P))
            (w w' : World), (∀ u ∈ us, u ∈ subs) → (∃ u ∈ us, Has D u) → J w.store →
            PTree.getProverL us d w = .ok ((qs, us'), w') →
            PTree.allSome qs = some qs' → ∀ w0 : World, J w0.store → ∀ r, PTree.precommitL qs' w0 ≠ .ok r := by
          intro us
          induction us with
          | nil => rintro _ _ _ _ _ _ ⟨u, hu, _⟩; cases hu
          | cons u us ihu =>
            rintro us' qs qs' w w' hm ⟨u0, hu0, hDu⟩ hw hq ha w0 hw0 r hr
            unfold PTree.getProverL at hq
            obtain ⟨⟨p?, u'⟩, w2, g1, hq⟩ := pm_bind.mp hq
            obtain ⟨⟨qs1, us1⟩, w3, g2, hq⟩ := pm_bind.mp hq
            rw [pm_pure_iff, Prod.mk.injEq, Prod.mk.injEq] at hq
            rw [← hq.1.1] at ha
            cases p? with
            | none => simp [PTree.allSome] at ha
            | some q =>
              simp only [PTree.allSome, Option.map_eq_some_iff] at ha
              obtain ⟨qs2, ha, rfl⟩ := ha
              unfold PTree.precommitL at hr
              obtain ⟨a, w4, k1, hr⟩ := pm_bind.mp hr
              obtain ⟨b, w5, k2, _⟩ := pm_bind.mp hr
              have hu := hm u (by simp)
              rcases List.mem_cons.mp hu0 with rfl | hu0
              · exact ih u0 hu u' q _ _ (hG u0 hu) hDu hw g1 w0 hw0 _ k1
              · exact ihu us1 qs1 qs2 _ _ (fun v hv => hm v (by simp [hv])) ⟨u0, hu0, hDu⟩
                  (frame_getProver K F u (hG u hu) _ _ _ hw g1) g2 ha w4
                  (frame_precommit K F u u' q _ _ (hG u hu) g1 _ _ _ hw0 k1) _ k2
        unfold PTree.precommit at hr
        obtain ⟨a, w4, k1, _⟩ := pm_bind.mp hr
        exact loop subs subs' ps ps' _ _ (fun _ h => h) ⟨u0, hu0, hDu⟩ (F.update _ hw) h1 hps w0 hw0 _ k1
  | or s subs ih =>
    rintro t' p w w' h ⟨l', hl, hD⟩ hw hp w0 hw0 r hr
    have hG : ∀ t ∈ subs, Every G t := fun t ht l hl => h l (.any _ _ t ht hl)
    obtain ⟨u0, hu0, hDu⟩ : ∃ u ∈ subs, Has D u := by
      cases hl with
      | any _ _ u hu hl => exact ⟨u, hu, l', hl, hD⟩
    unfold PTree.getProver at hp
    rw [pm_getStore_bind, pm_setStore_bind] at hp
    split at hp
    · rw [pm_pure_iff] at hp; simp at hp
    · obtain ⟨⟨ro, subs'⟩, w1, h1, h2⟩ := pm_bind.mp hp
      have hk := (orLoop_keeps (fun t _ => getProver_keeps K d t) _ _ _ _ _ _ _ rfl h1).1
      cases ro with
      | none => simp only [pm_pure_iff] at h2; simp at h2
      | some x =>
        obtain ⟨i, q⟩ := x
        simp only at h2
        obtain ⟨⟨subs'', sims⟩, w2, h3, h2⟩ := pm_bind.mp h2
        rw [pm_pure_iff, Prod.mk.injEq, Prod.mk.injEq, Option.some.injEq] at h2
        rw [← h2.1.1] at hr
        obtain ⟨jw1, _, hsome, _⟩ := orLoop_cases (J := J) (fun k act hact wa ra wb hwa hra => by
          rw [acts_get] at hact
          cases hi : subs[k]? with
          | none => simp [hi] at hact
          | some u =>
            simp only [hi, Option.map_some, Option.some.injEq] at hact
            subst hact
            exact frame_getProver K F u (hG u (List.mem_of_getElem? hi)) _ _ _ hwa hra) _ _ _ _ _ _ _
          (F.update _ hw) h1
        obtain ⟨_, act, wa, wb, u', hact, hwa, hrun⟩ := hsome i q rfl
        rw [acts_get] at hact
        cases hi : subs[i]? with
        | none => simp [hi] at hact
        | some u =>
          simp only [hi, Option.map_some, Option.some.injEq] at hact
          subst hact
          have hu := List.mem_of_getElem? hi
          unfold PTree.precommit at hr
          obtain ⟨a, w4, k1, _⟩ := pm_bind.mp hr
          obtain ⟨j, hj⟩ := List.getElem?_of_mem hu0
          by_cases hij : j = i
          · subst hij
            rw [hi] at hj
            cases hj
            exact ih u0 hu u' q _ _ (hG u0 hu) hDu hwa hrun w0 hw0 _ k1
          · obtain ⟨v, hv, e⟩ := blankL_nth hk hj
            refine no_setup K F i subs' 0 (fun t ht => ?_) j v hv (by omega) (has_blank F.lastingD e hDu) w1 jw1 _ h3
            obtain ⟨i', hi'⟩ := List.getElem?_of_mem ht
            obtain ⟨u1, hu1, e1⟩ := blankL_nth hk.symm hi'
            exact every_blank F.lastingG e1.symm (hG u1 (List.mem_of_getElem? hu1))

end

/-! ### Instances -/

theorem keepCore : KeepLaws (E := E) (DLRep E) (DLRepProver E) where
  fresh l := rfl
  mark v l := rfl
  process σ l l' v h := by
    simp only [StmtOps.process, Except.ok.injEq] at h
    rw [← h]
  prepare l l' w w' h := by
    simp only [StmtOps.prepareSim, pm_pure_iff, Prod.mk.injEq] at h
    rw [← h.1]
  getProver s s' d p? w w' h1 := by
    simp only [ProverOps.getProver, DLRepProver.getProver] at h1
    rw [pm_getStore_bind] at h1
    split at h1
    · rw [pm_pure_iff, Prod.mk.injEq, Prod.mk.injEq] at h1
      rw [← h1.1.1, ← h1.1.2]
      exact ⟨rfl, by simp⟩
    · rw [pm_pure_iff, Prod.mk.injEq, Prod.mk.injEq] at h1
      rw [← h1.1.1, ← h1.1.2]
      refine ⟨rfl, fun p hp => ?_⟩
      simp only [Option.some.injEq] at hp
      subst hp; rfl
  precommit p p' v w w' h := by
    simp only [ProverOps.precommit, pm_pure_iff, Prod.mk.injEq] at h
    rw [← h.1.2]
  commit p p' d v w w' h := by
    simp only [ProverOps.internalCommit, DLRepProver.internalCommit] at h
    obtain ⟨d1, w1, _, h⟩ := pm_bind.mp h
    rw [pm_getStore_bind, pm_liftE_bind_iff] at h
    obtain ⟨ks, _, h⟩ := h
    rw [pm_liftE_bind_iff] at h
    obtain ⟨c, _, h⟩ := h
    rw [pm_pure_iff, Prod.mk.injEq, Prod.mk.injEq] at h
    rw [← h.1.2]; rfl

theorem frame_getProver_dlrep {J : Store → Prop} (s : DLRep E) (d : Dict Int) : Frame J (DLRepProver.getProver s d) := by
  unfold DLRepProver.getProver
  refine frame_bind frame_getStore fun σ => ?_
  simp only
  split
  · exact frame_pure _
  · exact frame_pure _

theorem frameCore {J : Store → Prop} {d : Dict Int} (hup : ∀ σ, J σ → J (updateSecretValues σ d)) :
    FrameLaws (L := DLRep E) (DLRepProver E) J d (fun _ => True) (fun _ => False) where
  lastingG _ _ _ _ := trivial
  lastingD _ _ _ h := h
  update := hup
  simulate := frame_simulate_dlrep
  prepare _ _ := frame_pure _
  getProver s _ := frame_getProver_dlrep s d
  precommit _ _ _ _ _ _ _ := frame_pure _
  noPrepare _ _ h := h.elim
  noPrecommit _ _ _ _ _ h := h.elim

/-- Extended statements whose methods keep `J`. -/
def Keeping (J : Store → Prop) (sp : ExtSpec E) : Prop := Frame J sp.precommit ∧ Frame J sp.simPrecommit

/-- Extended statements whose methods fail in all heaps that have `J`. -/
def Failing (J : Store → Prop) (sp : ExtSpec E) : Prop :=
  ∀ w : World, J w.store → (∀ r, sp.precommit w ≠ .ok r) ∧
    ∀ v w', sp.simPrecommit w = .ok (v, w') → ∀ k, sp.construct w'.store v ≠ .ok k

theorem frameLeaf {J : Store → Prop} {d : Dict Int} (hup : ∀ σ, J σ → J (updateSecretValues σ d)) :
    FrameLaws (L := Leaf E) (LeafProver E) J d (fun l => ∀ e, l = .ext e → Keeping J e.spec)
      (fun l => ∃ e, l = .ext e ∧ Failing J e.spec) where
  lastingG l l' h hl e he := by
    subst he
    cases l with
    | dlrep s => simp [Blank.blank] at h
    | ext e0 =>
      simp only [Blank.blank, Leaf.ext.injEq, Ext.mk.injEq, and_true] at h
      rw [← h]
      exact hl e0 rfl
  lastingD l l' h hl := by
    obtain ⟨e, rfl, he⟩ := hl
    cases l' with
    | dlrep s => simp [Blank.blank] at h
    | ext e0 =>
      simp only [Blank.blank, Leaf.ext.injEq, Ext.mk.injEq, and_true] at h
      exact ⟨e0, rfl, h ▸ he⟩
  update := hup
  simulate := frame_simulate_leaf
  prepare l hl := by
    cases l with
    | dlrep s => exact frame_bind (frame_pure _) fun _ => frame_pure _
    | ext e =>
      refine frame_bind ?_ fun _ => frame_pure _
      show Frame J e.prepareSim
      exact frame_bind (hl e rfl).2 fun _ => frame_bind frame_getStore fun _ => frame_liftE _
  getProver l hl := by
    cases l with
    | dlrep s => exact frame_bind (frame_getProver_dlrep s d) fun _ => frame_pure _
    | ext e =>
      refine frame_bind ?_ fun _ => frame_pure _
      exact frame_update hup (frame_pure _)
  precommit l l' p w w' hl h := by
    cases l with
    | dlrep s =>
      simp only [ProverOps.getProver] at h
      obtain ⟨⟨q?, s'⟩, w1, _, h⟩ := pm_bind.mp h
      rw [pm_pure_iff, Prod.mk.injEq, Prod.mk.injEq] at h
      cases q? with
      | none => simp at h
      | some q =>
        simp only [Option.map_some, Option.some.injEq] at h
        rw [← h.1.1]
        exact frame_pure _
    | ext e =>
      simp only [ProverOps.getProver] at h
      obtain ⟨⟨q?, s'⟩, w1, h1, h⟩ := pm_bind.mp h
      rw [pm_pure_iff, Prod.mk.injEq, Prod.mk.injEq] at h
      unfold ExtProver.getProver at h1
      rw [pm_getStore_bind, pm_setStore_bind, pm_pure_iff, Prod.mk.injEq, Prod.mk.injEq] at h1
      rw [← h1.1.1] at h
      simp only [Option.map_some, Option.some.injEq] at h
      rw [← h.1.1]
      refine frame_bind ?_ fun _ => frame_pure _
      unfold ExtProver.precommit
      refine frame_bind (hl e rfl).1 fun _ => frame_bind frame_getStore fun _ => frame_bind (frame_liftE _) fun _ =>
        frame_bind (frame_liftE _) fun _ => frame_bind ?_ fun _ => frame_pure _
      exact frame_getProver keepCore (frameCore hup) _ fun _ _ => trivial
  noPrepare l w hl hw r hr := by
    obtain ⟨e, rfl, he⟩ := hl
    obtain ⟨a, w1, h1, _⟩ := pm_bind.mp hr
    replace h1 : e.prepareSim w = .ok (a, w1) := h1
    unfold Ext.prepareSim at h1
    obtain ⟨v, w2, h2, h1⟩ := pm_bind.mp h1
    rw [pm_getStore_bind, liftE_iff] at h1
    obtain ⟨h1, _⟩ := h1
    obtain ⟨k, hk, _⟩ := bind_ok_iff.mp h1
    exact (he w hw).2 v w2 h2 k hk
  noPrecommit l l' p w w' hl h w0 hw0 r hr := by
    obtain ⟨e, rfl, he⟩ := hl
    simp only [ProverOps.getProver] at h
    obtain ⟨⟨q?, s'⟩, w1, h1, h⟩ := pm_bind.mp h
    rw [pm_pure_iff, Prod.mk.injEq, Prod.mk.injEq] at h
    unfold ExtProver.getProver at h1
    rw [pm_getStore_bind, pm_setStore_bind, pm_pure_iff, Prod.mk.injEq, Prod.mk.injEq] at h1
    rw [← h1.1.1] at h
    simp only [Option.map_some, Option.some.injEq] at h
    rw [← h.1.1] at hr
    obtain ⟨a, w2, h2, _⟩ := pm_bind.mp hr
    unfold ExtProver.precommit at h2
    obtain ⟨v, w3, h3, _⟩ := pm_bind.mp h2
    exact (he w0 hw0).1 _ h3

/-- A statement with an extended leaf that fails in all heaps with `J` has no proof. -/
theorem no_proof {J : Store → Prop} {d : Dict Int} (hup : ∀ σ, J σ → J (updateSecretValues σ d)) {env : Env E}
    {t : Stmt E} {w : World} {msg : String} (hw : J (updateSecretValues w.store d))
    (hk : ∀ sp, Uses sp t → Keeping J sp) {sp : ExtSpec E} (hu : Uses sp t) (hf : Failing J sp) :
    ∀ r, prove (LeafProver E) env t d msg w ≠ .ok r := by
  intro r hr
  have hall : Every (fun l : Leaf E => ∀ e, l = .ext e → Keeping J e.spec) t := by
    rintro _ hl e rfl
    exact hk _ ⟨e, rfl, hl⟩
  have hhas : Has (fun l : Leaf E => ∃ e, l = .ext e ∧ Failing J e.spec) t := by
    obtain ⟨e, rfl, hl⟩ := hu
    exact ⟨_, hl, e, rfl, hf⟩
  have hsame : (PTree.getProver t d : PM (Option (StmtProver E) × Stmt E)) w =
      (PTree.getProver t d : PM (Option (StmtProver E) × Stmt E)) ⟨updateSecretValues w.store d, w.rng⟩ := by
    cases t with
    | leaf l =>
      cases l with
      | dlrep s =>
        obtain ⟨e, _, hl⟩ := hu
        cases hl
      | ext e =>
        simp only [PTree.getProver, ProverOps.getProver, ExtProver.getProver]
        simp only [bind, StateT.bind, getStore, setStore, pure, StateT.pure, Except.bind, Except.pure,
          updateSecretValues_idem]
    | and s subs =>
      simp only [PTree.getProver]
      rw [pm_getStore_bind, pm_setStore_bind, pm_getStore_bind, pm_setStore_bind]
      simp only [updateSecretValues_idem]
    | or s subs =>
      simp only [PTree.getProver]
      rw [pm_getStore_bind, pm_setStore_bind, pm_getStore_bind, pm_setStore_bind]
      simp only [updateSecretValues_idem]
  unfold prove at hr
  obtain ⟨⟨p?, t'⟩, w1, h1, h2⟩ := pm_bind.mp hr
  rw [hsame] at h1
  cases p? with
  | none => exact (raise_ne.mp h2).elim
  | some p =>
    simp only at h2
    obtain ⟨⟨n, p'⟩, w2, h3, _⟩ := pm_bind.mp h2
    unfold PTree.getNizkProof at h3
    obtain ⟨a, w3, h4, _⟩ := pm_bind.mp h3
    exact no_precommit keepLeaf (frameLeaf hup) t t' p _ _ hall hhas hw h1 w1
      (frame_getProver keepLeaf (frameLeaf hup) t hall _ _ _ hw h1) _ h4

end Zksk
