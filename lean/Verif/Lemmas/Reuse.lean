import Verif.Lemmas.Frame
import Verif.Lemmas.State

/-! What `prove()` and `verify()` leave behind in a statement object, up to a relation on leaves. -/

set_option linter.unusedSectionVars false

namespace Zksk

open Spec

variable {E : Type} [AddCommGroup E] [DecidableEq E]

section
variable {L P : Type} [StmtOps E L] [ProverOps E L P]

mutual
/-- Same compositions with the same flags, and related leaves. -/
def TRel (R : L → L → Prop) : Tree L → Tree L → Prop
  | .leaf l, .leaf l' => R l l'
  | .and b ts, .and b' ts' => b' = b ∧ TRelL R ts ts'
  | .or b ts, .or b' ts' => b' = b ∧ TRelL R ts ts'
  | _, _ => False
/-- `TRel` for lists. -/
def TRelL (R : L → L → Prop) : List (Tree L) → List (Tree L) → Prop
  | [], [] => True
  | t :: ts, t' :: ts' => TRel R t t' ∧ TRelL R ts ts'
  | _, _ => False
end

variable {R : L → L → Prop}

omit [StmtOps E L] [ProverOps E L P] in
theorem trelL_iff : ∀ {ts us : List (Tree L)}, TRelL R ts us ↔ us.length = ts.length ∧
    ∀ (i : Nat) t u, ts[i]? = some t → us[i]? = some u → TRel R t u
  | [], [] => by simp [TRelL]
  | [], _ :: _ => by simp [TRelL]
  | _ :: _, [] => by simp [TRelL]
  | t :: ts, u :: us => by
    simp only [TRelL, trelL_iff (ts := ts), List.length_cons, Nat.add_right_cancel_iff]
    constructor
    · rintro ⟨h, h1, h2⟩
      refine ⟨h1, fun i a b ha hb => ?_⟩
      cases i with
      | zero => simp at ha hb; rw [← ha, ← hb]; exact h
      | succ i => exact h2 i a b (by simpa using ha) (by simpa using hb)
    · rintro ⟨h1, h2⟩
      exact ⟨h2 0 t u rfl rfl, h1, fun i a b ha hb => h2 (i + 1) a b (by simpa using ha) (by simpa using hb)⟩

omit [StmtOps E L] [ProverOps E L P] in
theorem trelL_nth {ts us : List (Tree L)} (h : TRelL R ts us) {i : Nat} {t : Tree L} (hi : ts[i]? = some t) :
    ∃ u, us[i]? = some u ∧ TRel R t u := by
  obtain ⟨h1, h2⟩ := trelL_iff.mp h
  have hl : i < us.length := by
    have := (List.getElem?_eq_some_iff.mp hi).1
    omega
  exact ⟨us[i], List.getElem?_eq_getElem hl, h2 i _ _ hi (List.getElem?_eq_getElem hl)⟩

omit [StmtOps E L] [ProverOps E L P] in
theorem trelL_mem {ts us : List (Tree L)} (h : TRelL R ts us) {u : Tree L} (hu : u ∈ us) : ∃ t ∈ ts, TRel R t u := by
  obtain ⟨h1, h2⟩ := trelL_iff.mp h
  obtain ⟨i, hi⟩ := List.mem_iff_getElem?.mp hu
  have hl : i < ts.length := by
    have := (List.getElem?_eq_some_iff.mp hi).1
    omega
  exact ⟨ts[i], List.getElem_mem _, h2 i _ _ (List.getElem?_eq_getElem hl) hi⟩

omit [StmtOps E L] [ProverOps E L P] in
theorem trelL_set {ts us : List (Tree L)} (h : TRelL R ts us) {i : Nat} {t t' : Tree L} (hi : ts[i]? = some t)
    (ht : TRel R t t') : TRelL R ts (us.set i t') := by
  obtain ⟨h1, h2⟩ := trelL_iff.mp h
  refine trelL_iff.mpr ⟨by simpa using h1, fun j a b ha hb => ?_⟩
  by_cases hj : i = j
  · subst hj
    rw [List.getElem?_set_self (by have := (List.getElem?_eq_some_iff.mp hi).1; omega)] at hb
    cases hb
    rw [hi] at ha
    cases ha
    exact ht
  · rw [List.getElem?_set_ne hj] at hb
    exact h2 j a b ha hb

omit [StmtOps E L] [ProverOps E L P] in
mutual
theorem trel_refl (h : ∀ l, R l l) : ∀ t : Tree L, TRel R t t
  | .leaf l => h l
  | .and _ ts => ⟨rfl, trelL_refl h ts⟩
  | .or _ ts => ⟨rfl, trelL_refl h ts⟩
theorem trelL_refl (h : ∀ l, R l l) : ∀ ts : List (Tree L), TRelL R ts ts
  | [] => trivial
  | t :: ts => ⟨trel_refl h t, trelL_refl h ts⟩
end

omit [StmtOps E L] [ProverOps E L P] in
mutual
theorem trel_trans (h : ∀ a b c, R a b → R b c → R a c) : ∀ t u v : Tree L, TRel R t u → TRel R u v → TRel R t v
  | .leaf a, .leaf b, .leaf c, h1, h2 => h a b c h1 h2
  | .and _ ts, .and _ us, .and _ vs, h1, h2 => ⟨h2.1.trans h1.1, trelL_trans h ts us vs h1.2 h2.2⟩
  | .or _ ts, .or _ us, .or _ vs, h1, h2 => ⟨h2.1.trans h1.1, trelL_trans h ts us vs h1.2 h2.2⟩
  | .leaf _, .leaf _, .and _ _, _, h2 | .leaf _, .leaf _, .or _ _, _, h2 => h2.elim
  | .leaf _, .and _ _, _, h1, _ | .leaf _, .or _ _, _, h1, _ => h1.elim
  | .and _ _, .and _ _, .leaf _, _, h2 | .and _ _, .and _ _, .or _ _, _, h2 => h2.elim
  | .and _ _, .leaf _, _, h1, _ | .and _ _, .or _ _, _, h1, _ => h1.elim
  | .or _ _, .or _ _, .leaf _, _, h2 | .or _ _, .or _ _, .and _ _, _, h2 => h2.elim
  | .or _ _, .leaf _, _, h1, _ | .or _ _, .and _ _, _, h1, _ => h1.elim
theorem trelL_trans (h : ∀ a b c, R a b → R b c → R a c) :
    ∀ ts us vs : List (Tree L), TRelL R ts us → TRelL R us vs → TRelL R ts vs
  | [], [], [], _, _ => trivial
  | t :: ts, u :: us, v :: vs, h1, h2 => ⟨trel_trans h t u v h1.1 h2.1, trelL_trans h ts us vs h1.2 h2.2⟩
  | [], [], _ :: _, _, h2 => h2.elim
  | [], _ :: _, _, h1, _ => h1.elim
  | _ :: _, [], _, h1, _ => h1.elim
  | _ :: _, _ :: _, [], _, h2 => h2.elim
end

omit [StmtOps E L] [ProverOps E L P] in
theorem hasLeaf_rel {l' : L} {t' : Tree L} (h : HasLeaf l' t') : ∀ {t : Tree L}, TRel R t t' →
    ∃ l, HasLeaf l t ∧ R l l' := by
  induction h with
  | leaf =>
    intro t ht
    cases t with
    | leaf l => exact ⟨l, .leaf, ht⟩
    | and _ _ => exact ht.elim
    | or _ _ => exact ht.elim
  | all b us u hu hl ih =>
    intro t ht
    cases t with
    | leaf _ => exact ht.elim
    | or _ _ => exact ht.elim
    | and b ts =>
      obtain ⟨a, ha, h1⟩ := trelL_mem ht.2 hu
      obtain ⟨l, h2, h3⟩ := ih h1
      exact ⟨l, .all _ _ a ha h2, h3⟩
  | any b us u hu hl ih =>
    intro t ht
    cases t with
    | leaf _ => exact ht.elim
    | and _ _ => exact ht.elim
    | or b ts =>
      obtain ⟨a, ha, h1⟩ := trelL_mem ht.2 hu
      obtain ⟨l, h2, h3⟩ := ih h1
      exact ⟨l, .any _ _ a ha h2, h3⟩

/-- What is needed of the methods of leaves. -/
structure ReuseLaws (P : Type) {L : Type} [StmtOps E L] [ProverOps E L P] (J : Store → Prop) (d : Dict Int)
    (G : L → Prop) (R : L → L → Prop) : Prop where
  refl : ∀ l, R l l
  trans : ∀ a b c, R a b → R b c → R a c
  lasting : ∀ l l', R l l' → G l → G l'
  update : ∀ σ, J σ → J (updateSecretValues σ d)
  simulate : ∀ (l : L) d c, Frame J (StmtOps.simulate l d c : PM (Sim E))
  prepare : ∀ (l l' : L) (w w' : World), G l → J w.store → StmtOps.prepareSim l w = .ok (l', w') →
    J w'.store ∧ R l l'
  getProver : ∀ (l l' : L) (p? : Option P) (w w' : World), G l → J w.store →
    ProverOps.getProver l d w = .ok ((p?, l'), w') → J w'.store ∧ R l l' ∧
      ∀ p, p? = some p → R l (ProverOps.stmtOf p)
  precommit : ∀ (p p' : P) (v : Val E) (w w' : World), ProverOps.precommit p w = .ok ((v, p'), w') →
    R (ProverOps.stmtOf p) (ProverOps.stmtOf p')
  commit : ∀ (p p' : P) (d : Option (Dict Int)) (v : Val E) (w w' : World),
    ProverOps.internalCommit p d w = .ok ((v, p'), w') → R (ProverOps.stmtOf p) (ProverOps.stmtOf p')
  fresh : ∀ l : L, R l (StmtOps.freshVerifier l)
  process : ∀ (σ : Store) (l l' : L) (v : Val E), StmtOps.process σ l v = .ok l' → R l l'

variable {J : Store → Prop} {d : Dict Int} {G : L → Prop} (K : ReuseLaws P J d G R)
include K

theorem every_rel {t t' : Tree L} (h : TRel R t t') (hG : Every G t) : Every G t' := by
  intro l' hl'
  obtain ⟨l, h1, h2⟩ := hasLeaf_rel hl' h
  exact K.lasting l l' h2 (hG l h1)

theorem fresh_rel : ∀ t : Tree L, TRel R t (Tree.freshVerifier t) := by
  have loop : ∀ ts : List (Tree L), (∀ t ∈ ts, TRel R t (Tree.freshVerifier t)) →
      TRelL R ts (Tree.freshVerifierL ts) := by
    intro ts
    induction ts with
    | nil => intro _; trivial
    | cons t ts ih => intro h; exact ⟨h t (by simp), ih fun t ht => h t (by simp [ht])⟩
  intro t
  induction t using Tree.ind with
  | leaf l => exact K.fresh l
  | and s ts ih => exact ⟨rfl, loop ts ih⟩
  | or s ts ih => exact ⟨rfl, loop ts ih⟩

theorem process_rel (σ : Store) : ∀ (t t' : Tree L) (v : Val E), Tree.process σ t v = .ok t' → TRel R t t' := by
  have loop : ∀ ts : List (Tree L), (∀ t ∈ ts, ∀ (t' : Tree L) (v : Val E), Tree.process σ t v = .ok t' →
      TRel R t t') → ∀ (ts' : List (Tree L)) (i : Nat) (v : Val E),
      Tree.processL σ ts i v = .ok ts' → TRelL R ts ts' := by
    intro ts
    induction ts with
    | nil =>
      intro _ ts' i v h
      simp only [Tree.processL, Except.ok.injEq] at h
      rw [← h]; trivial
    | cons t ts ih =>
      intro hm ts' i v h
      simp only [Tree.processL] at h
      obtain ⟨vi, _, h⟩ := bind_ok_iff.mp h
      obtain ⟨t1, h1, h⟩ := bind_ok_iff.mp h
      obtain ⟨ts1, h2, h⟩ := bind_ok_iff.mp h
      injection h with h
      subst h
      exact ⟨hm t (by simp) t1 vi h1, ih (fun t ht => hm t (by simp [ht])) ts1 _ _ h2⟩
  intro t
  induction t using Tree.ind with
  | leaf l =>
    intro t' v h
    simp only [Tree.process] at h
    obtain ⟨l', h1, h⟩ := bind_ok_iff.mp h
    injection h with h
    subst h
    exact K.process σ l l' v h1
  | and s ts ih =>
    intro t' v h
    simp only [Tree.process] at h
    split at h
    · injection h with h; rw [← h]; exact trel_refl K.refl _
    · obtain ⟨ts1, h1, h⟩ := bind_ok_iff.mp h
      injection h with h
      subst h
      exact ⟨rfl, loop ts ih ts1 _ _ h1⟩
  | or s ts ih =>
    intro t' v h
    simp only [Tree.process] at h
    split at h
    · injection h with h; rw [← h]; exact trel_refl K.refl _
    · obtain ⟨ts1, h1, h⟩ := bind_ok_iff.mp h
      injection h with h
      subst h
      exact ⟨rfl, loop ts ih ts1 _ _ h1⟩

theorem prepare_rel : ∀ (t t' : Tree L) (w w' : World), Every G t → J w.store →
    Tree.prepareSim t w = .ok (t', w') → J w'.store ∧ TRel R t t' := by
  have loop : ∀ ts : List (Tree L), (∀ t ∈ ts, ∀ (t' : Tree L) (w w' : World), Every G t → J w.store →
      Tree.prepareSim t w = .ok (t', w') → J w'.store ∧ TRel R t t') →
      ∀ (ts' : List (Tree L)) (w w' : World), (∀ t ∈ ts, Every G t) → J w.store →
      Tree.prepareSimL ts w = .ok (ts', w') → J w'.store ∧ TRelL R ts ts' := by
    intro ts
    induction ts with
    | nil =>
      intro _ ts' w w' _ hw h
      simp only [Tree.prepareSimL, pm_pure_iff, Prod.mk.injEq] at h
      rw [← h.1, ← h.2]
      exact ⟨hw, trivial⟩
    | cons t ts ih =>
      intro hm ts' w w' hG hw h
      simp only [Tree.prepareSimL] at h
      obtain ⟨t1, w1, h1, h⟩ := pm_bind.mp h
      obtain ⟨ts1, w2, h2, h⟩ := pm_bind.mp h
      rw [pm_pure_iff, Prod.mk.injEq] at h
      rw [← h.1, ← h.2]
      obtain ⟨j1, r1⟩ := hm t (by simp) t1 _ _ (hG t (by simp)) hw h1
      obtain ⟨j2, r2⟩ := ih (fun t ht => hm t (by simp [ht])) ts1 _ _ (fun t ht => hG t (by simp [ht])) j1 h2
      exact ⟨j2, r1, r2⟩
  intro t
  induction t using Tree.ind with
  | leaf l =>
    intro t' w w' hG hw h
    simp only [Tree.prepareSim] at h
    obtain ⟨l', w1, h1, h⟩ := pm_bind.mp h
    rw [pm_pure_iff, Prod.mk.injEq] at h
    rw [← h.1, ← h.2]
    exact K.prepare l l' _ _ (hG l .leaf) hw h1
  | and s ts ih =>
    intro t' w w' hG hw h
    simp only [Tree.prepareSim] at h
    obtain ⟨ts1, w1, h1, h⟩ := pm_bind.mp h
    rw [pm_pure_iff, Prod.mk.injEq] at h
    rw [← h.1, ← h.2]
    obtain ⟨j, r⟩ := loop ts ih ts1 _ _ (fun t ht l hl => hG l (.all _ _ t ht hl)) hw h1
    exact ⟨j, rfl, r⟩
  | or s ts ih =>
    intro t' w w' hG hw h
    simp only [Tree.prepareSim] at h
    obtain ⟨ts1, w1, h1, h⟩ := pm_bind.mp h
    rw [pm_pure_iff, Prod.mk.injEq] at h
    rw [← h.1, ← h.2]
    obtain ⟨j, r⟩ := loop ts ih ts1 _ _ (fun t ht l hl => hG l (.any _ _ t ht hl)) hw h1
    exact ⟨j, rfl, r⟩

theorem setup_rel {idx : Nat} : ∀ (ts : List (Tree L)) (index : Nat) (w w' : World) (ts' : List (Tree L))
    (sims : List (Sim E)), (∀ t ∈ ts, Every G t) → J w.store →
    PTree.setupSimulations idx ts index w = .ok ((ts', sims), w') → J w'.store ∧ TRelL R ts ts'
  | [], index, w, w', ts', sims, _, hw, h => by
    simp only [PTree.setupSimulations, pm_pure_iff, Prod.mk.injEq] at h
    rw [← h.1.1, ← h.2]
    exact ⟨hw, trivial⟩
  | t :: ts, index, w, w', ts', sims, hG, hw, h => by
    simp only [PTree.setupSimulations] at h
    split at h
    · obtain ⟨⟨ts1, sims1⟩, w1, h1, h⟩ := pm_bind.mp h
      rw [pm_pure_iff, Prod.mk.injEq, Prod.mk.injEq] at h
      rw [← h.1.1, ← h.2]
      obtain ⟨j, r⟩ := setup_rel ts _ _ _ _ _ (fun t ht => hG t (by simp [ht])) hw h1
      exact ⟨j, trel_refl K.refl t, r⟩
    · obtain ⟨t1, w1, h1, h⟩ := pm_bind.mp h
      obtain ⟨s, w2, h2, h⟩ := pm_bind.mp h
      obtain ⟨⟨ts1, sims1⟩, w3, h3, h⟩ := pm_bind.mp h
      rw [pm_pure_iff, Prod.mk.injEq, Prod.mk.injEq] at h
      rw [← h.1.1, ← h.2]
      obtain ⟨j1, r1⟩ := prepare_rel K t t1 _ _ (hG t (by simp)) hw h1
      have j2 := frame_simulate K.simulate _ _ _ _ _ _ j1 h2
      obtain ⟨j3, r3⟩ := setup_rel ts _ _ _ _ _ (fun t ht => hG t (by simp [ht])) j2 h3
      exact ⟨j3, r1, r3⟩

omit K in
theorem orLoop_rel {ts : List (Tree L)} (hG : ∀ t ∈ ts, Every G t)
    (hK : ∀ t ∈ ts, ∀ (t' : Tree L) (p? : Option (PTree E L P)) (w w' : World), Every G t → J w.store →
      PTree.getProver t d w = .ok ((p?, t'), w') → J w'.store ∧ TRel R t t' ∧
      ∀ p, p? = some p → TRel R t (PTree.stmtOf p)) :
    ∀ (fuel : Nat) (possible : List Nat) (stmts stmts' : List (Tree L)) (w w' : World)
      (r : Option (Nat × PTree E L P)), TRelL R ts stmts → J w.store →
    PTree.orLoop (PTree.getProverActs ts d) fuel possible stmts w = .ok ((r, stmts'), w') →
    J w'.store ∧ TRelL R ts stmts' ∧ ∀ i p, r = some (i, p) → ∃ t, ts[i]? = some t ∧ TRel R t (PTree.stmtOf p)
  | 0, possible, stmts, stmts', w, w', r, hs, hw, h => by
    simp only [PTree.orLoop, pm_pure_iff, Prod.mk.injEq] at h
    rw [← h.1.1, ← h.1.2, ← h.2]
    exact ⟨hw, hs, by simp⟩
  | fuel + 1, possible, stmts, stmts', w, w', r, hs, hw, h => by
    simp only [PTree.orLoop] at h
    split at h
    · rw [pm_pure_iff, Prod.mk.injEq, Prod.mk.injEq] at h
      rw [← h.1.1, ← h.1.2, ← h.2]
      exact ⟨hw, hs, by simp⟩
    · obtain ⟨i, w1, h1, h⟩ := pm_bind.mp h
      have j1 : J w1.store := by
        have : Frame J (PTree.choice possible) := by
          unfold PTree.choice
          refine frame_bind (frame_draw _) fun i => ?_
          split
          · exact frame_pure _
          · exact frame_raise _
        exact this _ _ _ hw h1
      cases ha : (PTree.getProverActs ts d : List (PM (Option (PTree E L P) × Tree L)))[i]? with
      | none => simp only [ha] at h; exact (raise_ne.mp h).elim
      | some act =>
        simp only [ha] at h
        obtain ⟨⟨p?, t'⟩, w2, h2, h⟩ := pm_bind.mp h
        rw [acts_get] at ha
        cases hi : ts[i]? with
        | none => simp [hi] at ha
        | some t =>
          simp only [hi, Option.map_some, Option.some.injEq] at ha
          subst ha
          have hm := List.mem_of_getElem? hi
          obtain ⟨k0, k1, k2⟩ := hK t hm t' p? w1 w2 (hG t hm) j1 h2
          have hset : TRelL R ts (stmts.set i t') := trelL_set hs hi k1
          cases p? with
          | none =>
            simp only at h
            exact orLoop_rel hG hK fuel _ _ _ _ _ _ hset k0 h
          | some p =>
            simp only at h
            rw [pm_pure_iff, Prod.mk.injEq, Prod.mk.injEq] at h
            rw [← h.1.1, ← h.1.2, ← h.2]
            refine ⟨k0, hset, fun j q hjq => ?_⟩
            simp only [Option.some.injEq, Prod.mk.injEq] at hjq
            obtain ⟨rfl, rfl⟩ := hjq
            exact ⟨t, hi, k2 p rfl⟩

theorem getProver_rel : ∀ (t t' : Tree L) (p? : Option (PTree E L P)) (w w' : World), Every G t → J w.store →
    PTree.getProver t d w = .ok ((p?, t'), w') → J w'.store ∧ TRel R t t' ∧
      ∀ p, p? = some p → TRel R t (PTree.stmtOf p) := by
  intro t
  induction t using Tree.ind with
  | leaf l =>
    intro t' p? w w' hG hw h
    simp only [PTree.getProver] at h
    obtain ⟨⟨q?, l'⟩, w1, h1, h⟩ := pm_bind.mp h
    rw [pm_pure_iff, Prod.mk.injEq, Prod.mk.injEq] at h
    rw [← h.1.1, ← h.1.2, ← h.2]
    obtain ⟨k0, k1, k2⟩ := K.getProver l l' q? _ _ (hG l .leaf) hw h1
    refine ⟨k0, k1, fun p hp => ?_⟩
    cases q? with
    | none => simp at hp
    | some q =>
      simp only [Option.map_some, Option.some.injEq] at hp
      subst hp
      exact k2 q rfl
  | and s ts ih =>
    intro t' p? w w' hG hw h
    simp only [PTree.getProver] at h
    rw [pm_getStore_bind, pm_setStore_bind] at h
    have hw1 := K.update _ hw
    cases s with
    | true =>
      simp only [if_true] at h
      rw [pm_pure_iff, Prod.mk.injEq, Prod.mk.injEq] at h
      rw [← h.1.1, ← h.1.2, ← h.2]
      exact ⟨hw1, trel_refl K.refl _, by simp⟩
    | false =>
      simp only [Bool.false_eq_true, if_false] at h
      obtain ⟨⟨ps, subs'⟩, w1, h1, h⟩ := pm_bind.mp h
      have loop : ∀ (us : List (Tree L)), (∀ t ∈ us, t ∈ ts) → ∀ (us' : List (Tree L))
          (qs : List (Option (PTree E L P))) (w w' : World), J w.store →
          PTree.getProverL us d w = .ok ((qs, us'), w') → J w'.store ∧ TRelL R us us' ∧
          ∀ ps, PTree.allSome qs = some ps → TRelL R us (PTree.stmtOfL ps) := by
        intro us
        induction us with
        | nil =>
          intro _ us' qs w w' hw h
          simp only [PTree.getProverL, pm_pure_iff, Prod.mk.injEq] at h
          rw [← h.1.1, ← h.1.2, ← h.2]
          refine ⟨hw, trivial, fun ps hps => ?_⟩
          simp only [PTree.allSome, Option.some.injEq] at hps
          rw [← hps]; trivial
        | cons u us ihu =>
          intro hm us' qs w w' hw h
          simp only [PTree.getProverL] at h
          obtain ⟨⟨q?, u1⟩, w2, h2, h⟩ := pm_bind.mp h
          obtain ⟨⟨qs1, us1⟩, w3, h3, h⟩ := pm_bind.mp h
          rw [pm_pure_iff, Prod.mk.injEq, Prod.mk.injEq] at h
          rw [← h.1.1, ← h.1.2, ← h.2]
          obtain ⟨k0, k1, k2⟩ := ih u (hm u (by simp)) u1 q? _ _
            (fun l hl => hG l (.all _ _ u (hm u (by simp)) hl)) hw h2
          obtain ⟨m0, m1, m2⟩ := ihu (fun t ht => hm t (by simp [ht])) us1 qs1 _ _ k0 h3
          refine ⟨m0, ⟨k1, m1⟩, fun ps hps => ?_⟩
          cases q? with
          | none => simp [PTree.allSome] at hps
          | some q =>
            simp only [PTree.allSome, Option.map_eq_some_iff] at hps
            obtain ⟨ps1, hps1, rfl⟩ := hps
            exact ⟨k2 q rfl, m2 ps1 hps1⟩
      obtain ⟨k0, k1, k2⟩ := loop ts (fun _ h => h) subs' ps _ _ hw1 h1
      cases ha : PTree.allSome ps with
      | none => simp only [ha] at h; exact (raise_ne.mp h).elim
      | some ps' =>
        simp only [ha] at h
        rw [pm_pure_iff, Prod.mk.injEq, Prod.mk.injEq] at h
        rw [← h.1.1, ← h.1.2, ← h.2]
        refine ⟨k0, ⟨rfl, k1⟩, fun p hp => ?_⟩
        cases hp
        exact ⟨rfl, k2 ps' ha⟩
  | or s ts ih =>
    intro t' p? w w' hG hw h
    simp only [PTree.getProver] at h
    rw [pm_getStore_bind, pm_setStore_bind] at h
    have hw1 := K.update _ hw
    have hGs : ∀ t ∈ ts, Every G t := fun t ht l hl => hG l (.any _ _ t ht hl)
    cases s with
    | true =>
      simp only [if_true] at h
      rw [pm_pure_iff, Prod.mk.injEq, Prod.mk.injEq] at h
      rw [← h.1.1, ← h.1.2, ← h.2]
      exact ⟨hw1, trel_refl K.refl _, by simp⟩
    | false =>
      simp only [Bool.false_eq_true, if_false] at h
      obtain ⟨⟨r, subs'⟩, w1, h1, h⟩ := pm_bind.mp h
      obtain ⟨k0, k1, k2⟩ := orLoop_rel hGs ih _ _ _ _ _ _ _ (trelL_refl K.refl ts) hw1 h1
      cases r with
      | none =>
        simp only at h
        rw [pm_pure_iff, Prod.mk.injEq, Prod.mk.injEq] at h
        rw [← h.1.1, ← h.1.2, ← h.2]
        exact ⟨k0, ⟨rfl, k1⟩, by simp⟩
      | some ip =>
        obtain ⟨i, p⟩ := ip
        simp only at h
        obtain ⟨⟨subs'', sims⟩, w2, h2, h⟩ := pm_bind.mp h
        rw [pm_pure_iff, Prod.mk.injEq, Prod.mk.injEq] at h
        rw [← h.1.1, ← h.1.2, ← h.2]
        have hG' : ∀ t ∈ subs', Every G t := by
          intro u hu
          obtain ⟨a, ha, hr⟩ := trelL_mem k1 hu
          exact every_rel K hr (hGs a ha)
        obtain ⟨m0, m1⟩ := setup_rel K _ _ _ _ _ _ hG' k0 h2
        have m2 := trelL_trans K.trans _ _ _ k1 m1
        refine ⟨m0, ⟨rfl, m2⟩, fun q hq => ?_⟩
        cases hq
        obtain ⟨t, ht, hb⟩ := k2 i p rfl
        exact ⟨rfl, trelL_set m2 ht hb⟩

omit K in
theorem or_set_rel (h : ∀ l, R l l) {a b : Tree L} (hr : TRel R a b) : ∀ (stmts : List (Tree L)) (i : Nat),
    TRelL R (stmts.set i a) (stmts.set i b)
  | [], _ => trivial
  | t :: ts, 0 => ⟨hr, trelL_refl h ts⟩
  | t :: ts, i + 1 => ⟨trel_refl h t, or_set_rel h hr ts i⟩

theorem precommit_rel : ∀ (p p' : PTree E L P) (v : Val E) (w w' : World),
    PTree.precommit p w = .ok ((v, p'), w') → TRel R (PTree.stmtOf p) (PTree.stmtOf p') := by
  intro p
  induction p using PTree.ind with
  | leaf p =>
    intro p' v w w' h
    simp only [PTree.precommit] at h
    obtain ⟨⟨v1, p1⟩, w1, h1, h⟩ := pm_bind.mp h
    rw [pm_pure_iff, Prod.mk.injEq, Prod.mk.injEq] at h
    rw [← h.1.2]
    exact K.precommit p p1 v1 _ _ h1
  | and s ps ih =>
    intro p' v w w' h
    simp only [PTree.precommit] at h
    obtain ⟨⟨vs, ps1⟩, w1, h1, h⟩ := pm_bind.mp h
    rw [pm_pure_iff, Prod.mk.injEq, Prod.mk.injEq] at h
    rw [← h.1.2]
    have loop : ∀ (qs : List (PTree E L P)), (∀ q ∈ qs, q ∈ ps) → ∀ (qs' : List (PTree E L P))
        (vs : List (Val E)) (w w' : World), PTree.precommitL qs w = .ok ((vs, qs'), w') →
        TRelL R (PTree.stmtOfL qs) (PTree.stmtOfL qs') := by
      intro qs
      induction qs with
      | nil =>
        intro _ qs' vs w w' h
        simp only [PTree.precommitL, pm_pure_iff, Prod.mk.injEq] at h
        rw [← h.1.2]; trivial
      | cons q qs ihq =>
        intro hm qs' vs w w' h
        simp only [PTree.precommitL] at h
        obtain ⟨⟨v1, q1⟩, w2, h2, h⟩ := pm_bind.mp h
        obtain ⟨⟨vs1, qs1⟩, w3, h3, h⟩ := pm_bind.mp h
        rw [pm_pure_iff, Prod.mk.injEq, Prod.mk.injEq] at h
        rw [← h.1.2]
        exact ⟨ih q (hm q (by simp)) q1 v1 _ _ h2, ihq (fun t ht => hm t (by simp [ht])) qs1 vs1 _ _ h3⟩
    exact ⟨rfl, loop ps (fun _ h => h) ps1 vs _ _ h1⟩
  | or s idx stmts sub sims ih =>
    intro p' v w w' h
    simp only [PTree.precommit] at h
    obtain ⟨⟨v1, sub1⟩, w1, h1, h⟩ := pm_bind.mp h
    simp only at h
    rw [pm_liftE_bind_iff] at h
    obtain ⟨vs, _, h⟩ := h
    rw [pm_pure_iff, Prod.mk.injEq, Prod.mk.injEq] at h
    rw [← h.1.2]
    exact ⟨rfl, or_set_rel K.refl (ih sub1 v1 _ _ h1) _ _⟩

theorem commit_rel : ∀ (p p' : PTree E L P) (d : Option (Dict Int)) (v : Val E) (w w' : World),
    PTree.internalCommit p d w = .ok ((v, p'), w') → TRel R (PTree.stmtOf p) (PTree.stmtOf p') := by
  intro p
  induction p using PTree.ind with
  | leaf p =>
    intro p' d v w w' h
    simp only [PTree.internalCommit] at h
    obtain ⟨⟨v1, p1⟩, w1, h1, h⟩ := pm_bind.mp h
    rw [pm_pure_iff, Prod.mk.injEq, Prod.mk.injEq] at h
    rw [← h.1.2]
    exact K.commit p p1 d v1 _ _ h1
  | and s ps ih =>
    intro p' d v w w' h
    simp only [PTree.internalCommit] at h
    rw [pm_getStore_bind, pm_liftE_bind_iff] at h
    obtain ⟨_, _, h⟩ := h
    obtain ⟨d1, w0, _, h⟩ := pm_bind.mp h
    obtain ⟨⟨vs, ps1⟩, w1, h1, h⟩ := pm_bind.mp h
    rw [pm_pure_iff, Prod.mk.injEq, Prod.mk.injEq] at h
    rw [← h.1.2]
    have loop : ∀ (qs : List (PTree E L P)), (∀ q ∈ qs, q ∈ ps) → ∀ (qs' : List (PTree E L P)) (d : Dict Int)
        (vs : List (Val E)) (w w' : World), PTree.internalCommitL qs d w = .ok ((vs, qs'), w') →
        TRelL R (PTree.stmtOfL qs) (PTree.stmtOfL qs') := by
      intro qs
      induction qs with
      | nil =>
        intro _ qs' d vs w w' h
        simp only [PTree.internalCommitL, pm_pure_iff, Prod.mk.injEq] at h
        rw [← h.1.2]; trivial
      | cons q qs ihq =>
        intro hm qs' d vs w w' h
        simp only [PTree.internalCommitL] at h
        obtain ⟨⟨v1, q1⟩, w2, h2, h⟩ := pm_bind.mp h
        obtain ⟨⟨vs1, qs1⟩, w3, h3, h⟩ := pm_bind.mp h
        rw [pm_pure_iff, Prod.mk.injEq, Prod.mk.injEq] at h
        rw [← h.1.2]
        exact ⟨ih q (hm q (by simp)) q1 _ v1 _ _ h2, ihq (fun t ht => hm t (by simp [ht])) qs1 _ vs1 _ _ h3⟩
    exact ⟨rfl, loop ps (fun _ h => h) ps1 _ vs _ _ h1⟩
  | or s idx stmts sub sims ih =>
    intro p' d v w w' h
    simp only [PTree.internalCommit] at h
    rw [pm_getStore_bind, pm_liftE_bind_iff] at h
    obtain ⟨_, _, h⟩ := h
    obtain ⟨⟨v1, sub1⟩, w1, h1, h⟩ := pm_bind.mp h
    simp only at h
    rw [pm_liftE_bind_iff] at h
    obtain ⟨vs, _, h⟩ := h
    rw [pm_pure_iff, Prod.mk.injEq, Prod.mk.injEq] at h
    rw [← h.1.2]
    exact ⟨rfl, or_set_rel K.refl (ih sub1 _ v1 _ _ h1) _ _⟩

/-- `J` holds of the heap when the prover starts to look at leaves. -/
theorem prove_rel {env : Env E} {t t' : Tree L} {msg : String} {w w' : World} {nizk : NIZK E}
    (hG : Every G t) (hw : J w.store)
    (h : prove P env t d msg w = .ok ((nizk, t'), w')) : TRel R t t' := by
  unfold prove at h
  obtain ⟨⟨p?, t1⟩, w1, h1, h⟩ := pm_bind.mp h
  cases p? with
  | none => exact (raise_ne.mp h).elim
  | some p =>
    simp only at h
    obtain ⟨⟨n, p'⟩, w2, h2, h⟩ := pm_bind.mp h
    rw [pm_pure_iff, Prod.mk.injEq, Prod.mk.injEq] at h
    rw [← h.1.2]
    unfold PTree.getNizkProof at h2
    obtain ⟨⟨v, p1⟩, w3, h3, h2⟩ := pm_bind.mp h2
    obtain ⟨⟨com, p2⟩, w4, h4, h2⟩ := pm_bind.mp h2
    simp only at h2 h4
    rw [pm_getStore_bind, pm_liftE_bind_iff] at h2
    obtain ⟨id, _, h2⟩ := h2
    rw [pm_liftE_bind_iff] at h2
    obtain ⟨c, _, h2⟩ := h2
    obtain ⟨r, w5, _, h2⟩ := pm_bind.mp h2
    rw [pm_pure_iff, Prod.mk.injEq, Prod.mk.injEq] at h2
    rw [← h2.1.2]
    exact trel_trans K.trans _ _ _ ((getProver_rel K t t1 (some p) _ _ hG hw h1).2.2 p rfl)
      (trel_trans K.trans _ _ _ (precommit_rel K p p1 v _ _ h3) (commit_rel K p1 p2 none com _ _ h4))

end

end Zksk
