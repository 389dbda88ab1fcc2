import Verif.SpecCalls
import Verif.Lemmas.Again

/-! Calls do not change what a statement says. -/

set_option linter.unusedSectionVars false

namespace Zksk

open Spec

variable {E : Type} [AddCommGroup E] [DecidableEq E]

section
variable {L P : Type} [StmtOps E L] [ProverOps E L P] [Blank L]

/-- The methods of leaves keep what the leaf says. -/
structure KeepLaws (L P : Type) [StmtOps E L] [ProverOps E L P] [Blank L] : Prop where
  fresh : ∀ l : L, Blank.blank (StmtOps.freshVerifier l) = Blank.blank l
  mark : ∀ (v : Bool) (l : L), Blank.blank (StmtOps.setSimulated v l) = Blank.blank l
  process : ∀ (σ : Store) (l l' : L) (v : Val E), StmtOps.process σ l v = .ok l' → Blank.blank l' = Blank.blank l
  prepare : ∀ (l l' : L) (w w' : World), StmtOps.prepareSim l w = .ok (l', w') → Blank.blank l' = Blank.blank l
  getProver : ∀ (l l' : L) (d : Dict Int) (p? : Option P) (w w' : World),
    ProverOps.getProver l d w = .ok ((p?, l'), w') → Blank.blank l' = Blank.blank l ∧
      ∀ p, p? = some p → Blank.blank (ProverOps.stmtOf p) = Blank.blank l
  precommit : ∀ (p p' : P) (v : Val E) (w w' : World), ProverOps.precommit p w = .ok ((v, p'), w') →
    Blank.blank (ProverOps.stmtOf p') = Blank.blank (ProverOps.stmtOf p)
  commit : ∀ (p p' : P) (d : Option (Dict Int)) (v : Val E) (w w' : World),
    ProverOps.internalCommit p d w = .ok ((v, p'), w') →
    Blank.blank (ProverOps.stmtOf p') = Blank.blank (ProverOps.stmtOf p)

variable (K : KeepLaws L P)
include K

theorem fresh_keeps : ∀ t : Tree L, Tree.blank (Tree.freshVerifier t) = Tree.blank t := by
  have loop : ∀ ts : List (Tree L), (∀ t ∈ ts, Tree.blank (Tree.freshVerifier t) = Tree.blank t) →
      Tree.blankL (Tree.freshVerifierL ts) = Tree.blankL ts := by
    intro ts
    induction ts with
    | nil => intro _; rfl
    | cons t ts ih =>
      intro h
      simp only [Tree.freshVerifierL, Tree.blankL, h t (by simp), ih fun t ht => h t (by simp [ht])]
  intro t
  induction t using Tree.ind with
  | leaf l => simp only [Tree.freshVerifier, Tree.blank, K.fresh]
  | and s ts ih => simp only [Tree.freshVerifier, Tree.blank, loop ts ih]
  | or s ts ih => simp only [Tree.freshVerifier, Tree.blank, loop ts ih]

theorem mark_keeps (v : Bool) (t : Tree L) : Tree.blank (Tree.setSimulated v t) = Tree.blank t := by
  cases t with
  | leaf l => simp only [Tree.setSimulated, Tree.blank, K.mark]
  | and s ts => rfl
  | or s ts => rfl

theorem process_keeps (σ : Store) : ∀ (t t' : Tree L) (v : Val E), Tree.process σ t v = .ok t' →
    Tree.blank t' = Tree.blank t := by
  have loop : ∀ ts : List (Tree L), (∀ t ∈ ts, ∀ (t' : Tree L) (v : Val E), Tree.process σ t v = .ok t' →
      Tree.blank t' = Tree.blank t) → ∀ (ts' : List (Tree L)) (i : Nat) (v : Val E),
      Tree.processL σ ts i v = .ok ts' → Tree.blankL ts' = Tree.blankL ts := by
    intro ts
    induction ts with
    | nil =>
      intro _ ts' i v h
      simp only [Tree.processL, Except.ok.injEq] at h
      rw [← h]
    | cons t ts ih =>
      intro hm ts' i v h
      simp only [Tree.processL] at h
      obtain ⟨vi, _, h⟩ := bind_ok_iff.mp h
      obtain ⟨t1, h1, h⟩ := bind_ok_iff.mp h
      obtain ⟨ts1, h2, h⟩ := bind_ok_iff.mp h
      injection h with h
      subst h
      simp only [Tree.blankL, hm t (by simp) t1 vi h1, ih (fun t ht => hm t (by simp [ht])) ts1 _ _ h2]
  intro t
  induction t using Tree.ind with
  | leaf l =>
    intro t' v h
    simp only [Tree.process] at h
    obtain ⟨l', h1, h⟩ := bind_ok_iff.mp h
    injection h with h
    subst h
    simp only [Tree.blank, K.process σ l l' v h1]
  | and s ts ih =>
    intro t' v h
    simp only [Tree.process] at h
    split at h
    · injection h with h; rw [← h]
    · obtain ⟨ts1, h1, h⟩ := bind_ok_iff.mp h
      injection h with h
      subst h
      simp only [Tree.blank, loop ts ih ts1 _ _ h1]
  | or s ts ih =>
    intro t' v h
    simp only [Tree.process] at h
    split at h
    · injection h with h; rw [← h]
    · obtain ⟨ts1, h1, h⟩ := bind_ok_iff.mp h
      injection h with h
      subst h
      simp only [Tree.blank, loop ts ih ts1 _ _ h1]

theorem prepare_keeps : ∀ (t t' : Tree L) (w w' : World), Tree.prepareSim t w = .ok (t', w') →
    Tree.blank t' = Tree.blank t := by
  have loop : ∀ ts : List (Tree L), (∀ t ∈ ts, ∀ (t' : Tree L) (w w' : World),
      Tree.prepareSim t w = .ok (t', w') → Tree.blank t' = Tree.blank t) →
      ∀ (ts' : List (Tree L)) (w w' : World), Tree.prepareSimL ts w = .ok (ts', w') →
      Tree.blankL ts' = Tree.blankL ts := by
    intro ts
    induction ts with
    | nil =>
      intro _ ts' w w' h
      simp only [Tree.prepareSimL, pm_pure_iff, Prod.mk.injEq] at h
      rw [← h.1]
    | cons t ts ih =>
      intro hm ts' w w' h
      simp only [Tree.prepareSimL] at h
      obtain ⟨t1, w1, h1, h⟩ := pm_bind.mp h
      obtain ⟨ts1, w2, h2, h⟩ := pm_bind.mp h
      rw [pm_pure_iff, Prod.mk.injEq] at h
      rw [← h.1]
      simp only [Tree.blankL, hm t (by simp) t1 _ _ h1, ih (fun t ht => hm t (by simp [ht])) ts1 _ _ h2]
  intro t
  induction t using Tree.ind with
  | leaf l =>
    intro t' w w' h
    simp only [Tree.prepareSim] at h
    obtain ⟨l', w1, h1, h⟩ := pm_bind.mp h
    rw [pm_pure_iff, Prod.mk.injEq] at h
    rw [← h.1]
    simp only [Tree.blank, K.prepare l l' _ _ h1]
  | and s ts ih =>
    intro t' w w' h
    simp only [Tree.prepareSim] at h
    obtain ⟨ts1, w1, h1, h⟩ := pm_bind.mp h
    rw [pm_pure_iff, Prod.mk.injEq] at h
    rw [← h.1]
    simp only [Tree.blank, loop ts ih ts1 _ _ h1]
  | or s ts ih =>
    intro t' w w' h
    simp only [Tree.prepareSim] at h
    obtain ⟨ts1, w1, h1, h⟩ := pm_bind.mp h
    rw [pm_pure_iff, Prod.mk.injEq] at h
    rw [← h.1]
    simp only [Tree.blank, loop ts ih ts1 _ _ h1]

theorem setup_keeps {idx : Nat} : ∀ (ts : List (Tree L)) (index : Nat) (w w' : World) (ts' : List (Tree L))
    (sims : List (Sim E)), PTree.setupSimulations idx ts index w = .ok ((ts', sims), w') →
    Tree.blankL ts' = Tree.blankL ts
  | [], index, w, w', ts', sims, h => by
    simp only [PTree.setupSimulations, pm_pure_iff, Prod.mk.injEq] at h
    rw [← h.1.1]
  | t :: ts, index, w, w', ts', sims, h => by
    simp only [PTree.setupSimulations] at h
    split at h
    · obtain ⟨⟨ts1, sims1⟩, w1, h1, h⟩ := pm_bind.mp h
      rw [pm_pure_iff, Prod.mk.injEq, Prod.mk.injEq] at h
      rw [← h.1.1]
      simp only [Tree.blankL, setup_keeps ts _ _ _ _ _ h1]
    · obtain ⟨t1, w1, h1, h⟩ := pm_bind.mp h
      obtain ⟨s, w2, h2, h⟩ := pm_bind.mp h
      obtain ⟨⟨ts1, sims1⟩, w3, h3, h⟩ := pm_bind.mp h
      rw [pm_pure_iff, Prod.mk.injEq, Prod.mk.injEq] at h
      rw [← h.1.1]
      simp only [Tree.blankL, prepare_keeps K t t1 _ _ h1, setup_keeps ts _ _ _ _ _ h3]

omit K in
theorem blankL_set {ts : List (Tree L)} {i : Nat} {t u : Tree L} (hi : ts[i]? = some u)
    (h : Tree.blank t = Tree.blank u) : Tree.blankL (ts.set i t) = Tree.blankL ts := by
  rw [Tree.blankL_eq, Tree.blankL_eq]
  refine List.ext_getElem? fun j => ?_
  rw [List.getElem?_map, List.getElem?_map]
  by_cases hj : i = j
  · subst hj
    rw [List.getElem?_set_self (List.getElem?_eq_some_iff.mp hi).1, hi]
    simp [h]
  · rw [List.getElem?_set_ne hj]

omit K in
theorem blankL_nth {ts us : List (Tree L)} (h : Tree.blankL ts = Tree.blankL us) {i : Nat} {t : Tree L}
    (hi : us[i]? = some t) : ∃ u, ts[i]? = some u ∧ Tree.blank u = Tree.blank t := by
  rw [Tree.blankL_eq, Tree.blankL_eq] at h
  have := congrArg (fun l => l[i]?) h
  simp only [List.getElem?_map, hi, Option.map_some] at this
  cases hu : ts[i]? with
  | none => simp [hu] at this
  | some u => simp only [hu, Option.map_some, Option.some.injEq] at this; exact ⟨u, rfl, this⟩

omit K in
theorem orLoop_keeps {ts : List (Tree L)} {d : Dict Int}
    (hK : ∀ t ∈ ts, ∀ (t' : Tree L) (p? : Option (PTree E L P)) (w w' : World),
      PTree.getProver t d w = .ok ((p?, t'), w') → Tree.blank t' = Tree.blank t ∧
      ∀ p, p? = some p → Tree.blank (PTree.stmtOf p) = Tree.blank t) :
    ∀ (fuel : Nat) (possible : List Nat) (stmts stmts' : List (Tree L)) (w w' : World)
      (r : Option (Nat × PTree E L P)), Tree.blankL stmts = Tree.blankL ts →
    PTree.orLoop (PTree.getProverActs ts d) fuel possible stmts w = .ok ((r, stmts'), w') →
    Tree.blankL stmts' = Tree.blankL ts ∧ ∀ i p, r = some (i, p) →
      ∃ t, ts[i]? = some t ∧ Tree.blank (PTree.stmtOf p) = Tree.blank t
  | 0, possible, stmts, stmts', w, w', r, hs, h => by
    simp only [PTree.orLoop, pm_pure_iff, Prod.mk.injEq] at h
    rw [← h.1.1, ← h.1.2]
    exact ⟨hs, by simp⟩
  | fuel + 1, possible, stmts, stmts', w, w', r, hs, h => by
    simp only [PTree.orLoop] at h
    split at h
    · rw [pm_pure_iff, Prod.mk.injEq, Prod.mk.injEq] at h
      rw [← h.1.1, ← h.1.2]
      exact ⟨hs, by simp⟩
    · obtain ⟨i, w1, h1, h⟩ := pm_bind.mp h
      cases ha : (PTree.getProverActs ts d : List (PM (Option (PTree E L P) × Tree L)))[i]? with
      | none => simp only [ha] at h; exact (raise_ne.mp h).elim
      | some act =>
        simp only [ha] at h
        obtain ⟨⟨p?, t'⟩, w2, h2, h⟩ := pm_bind.mp h
        rw [acts_get] at ha
        cases hi : ts[i]? with
        | none => simp [hi] at ha
        | some t =>
          simp only [hi, Option.map_some, Option.some.injEq] at ha
          subst ha
          obtain ⟨k1, k2⟩ := hK t (List.mem_of_getElem? hi) t' p? w1 w2 h2
          obtain ⟨u, hu, hub⟩ := blankL_nth hs hi
          have hset : Tree.blankL (stmts.set i t') = Tree.blankL ts := by
            rw [blankL_set hu (by rw [k1, hub]), hs]
          cases p? with
          | none =>
            simp only at h
            exact orLoop_keeps hK fuel _ _ _ _ _ _ hset h
          | some p =>
            simp only at h
            rw [pm_pure_iff, Prod.mk.injEq, Prod.mk.injEq] at h
            rw [← h.1.1, ← h.1.2]
            refine ⟨hset, fun j q hjq => ?_⟩
            simp only [Option.some.injEq, Prod.mk.injEq] at hjq
            obtain ⟨rfl, rfl⟩ := hjq
            exact ⟨t, hi, k2 p rfl⟩

theorem getProver_keeps (d : Dict Int) : ∀ (t t' : Tree L) (p? : Option (PTree E L P)) (w w' : World),
    PTree.getProver t d w = .ok ((p?, t'), w') → Tree.blank t' = Tree.blank t ∧
      ∀ p, p? = some p → Tree.blank (PTree.stmtOf p) = Tree.blank t := by
  intro t
  induction t using Tree.ind with
  | leaf l =>
    intro t' p? w w' h
    simp only [PTree.getProver] at h
    obtain ⟨⟨q?, l'⟩, w1, h1, h⟩ := pm_bind.mp h
    rw [pm_pure_iff, Prod.mk.injEq, Prod.mk.injEq] at h
    rw [← h.1.1, ← h.1.2]
    obtain ⟨k1, k2⟩ := K.getProver l l' d q? _ _ h1
    refine ⟨by simp only [Tree.blank, k1], fun p hp => ?_⟩
    cases q? with
    | none => simp at hp
    | some q =>
      simp only [Option.map_some, Option.some.injEq] at hp
      subst hp
      simp only [PTree.stmtOf, Tree.blank, k2 q rfl]
  | and s ts ih =>
    intro t' p? w w' h
    simp only [PTree.getProver] at h
    rw [pm_getStore_bind, pm_setStore_bind] at h
    cases s with
    | true =>
      simp only [if_true] at h
      rw [pm_pure_iff, Prod.mk.injEq, Prod.mk.injEq] at h
      rw [← h.1.1, ← h.1.2]
      exact ⟨rfl, by simp⟩
    | false =>
      simp only [Bool.false_eq_true, if_false] at h
      obtain ⟨⟨ps, subs'⟩, w1, h1, h⟩ := pm_bind.mp h
      have loop : ∀ (us : List (Tree L)), (∀ t ∈ us, t ∈ ts) → ∀ (us' : List (Tree L))
          (qs : List (Option (PTree E L P))) (w w' : World),
          PTree.getProverL us d w = .ok ((qs, us'), w') → Tree.blankL us' = Tree.blankL us ∧
          ∀ ps, PTree.allSome qs = some ps → Tree.blankL (PTree.stmtOfL ps) = Tree.blankL us := by
        intro us
        induction us with
        | nil =>
          intro _ us' qs w w' h
          simp only [PTree.getProverL, pm_pure_iff, Prod.mk.injEq] at h
          rw [← h.1.1, ← h.1.2]
          refine ⟨rfl, fun ps hps => ?_⟩
          simp only [PTree.allSome, Option.some.injEq] at hps
          rw [← hps]; rfl
        | cons u us ihu =>
          intro hm us' qs w w' h
          simp only [PTree.getProverL] at h
          obtain ⟨⟨q?, u1⟩, w2, h2, h⟩ := pm_bind.mp h
          obtain ⟨⟨qs1, us1⟩, w3, h3, h⟩ := pm_bind.mp h
          rw [pm_pure_iff, Prod.mk.injEq, Prod.mk.injEq] at h
          rw [← h.1.1, ← h.1.2]
          obtain ⟨k1, k2⟩ := ih u (hm u (by simp)) u1 q? _ _ h2
          obtain ⟨m1, m2⟩ := ihu (fun t ht => hm t (by simp [ht])) us1 qs1 _ _ h3
          refine ⟨by simp only [Tree.blankL, k1, m1], fun ps hps => ?_⟩
          cases q? with
          | none => simp [PTree.allSome] at hps
          | some q =>
            simp only [PTree.allSome, Option.map_eq_some_iff] at hps
            obtain ⟨ps1, hps1, rfl⟩ := hps
            simp only [PTree.stmtOfL, Tree.blankL, k2 q rfl, m2 ps1 hps1]
      obtain ⟨k1, k2⟩ := loop ts (fun _ h => h) subs' ps _ _ h1
      cases ha : PTree.allSome ps with
      | none => simp only [ha] at h; exact (raise_ne.mp h).elim
      | some ps' =>
        simp only [ha] at h
        rw [pm_pure_iff, Prod.mk.injEq, Prod.mk.injEq] at h
        rw [← h.1.1, ← h.1.2]
        refine ⟨by simp only [Tree.blank, k1], fun p hp => ?_⟩
        cases hp
        simp only [PTree.stmtOf, Tree.blank, k2 ps' ha]
  | or s ts ih =>
    intro t' p? w w' h
    simp only [PTree.getProver] at h
    rw [pm_getStore_bind, pm_setStore_bind] at h
    cases s with
    | true =>
      simp only [if_true] at h
      rw [pm_pure_iff, Prod.mk.injEq, Prod.mk.injEq] at h
      rw [← h.1.1, ← h.1.2]
      exact ⟨rfl, by simp⟩
    | false =>
      simp only [Bool.false_eq_true, if_false] at h
      obtain ⟨⟨r, subs'⟩, w1, h1, h⟩ := pm_bind.mp h
      obtain ⟨k1, k2⟩ := orLoop_keeps ih _ _ _ _ _ _ _ rfl h1
      cases r with
      | none =>
        simp only at h
        rw [pm_pure_iff, Prod.mk.injEq, Prod.mk.injEq] at h
        rw [← h.1.1, ← h.1.2]
        exact ⟨by simp only [Tree.blank, k1], by simp⟩
      | some ip =>
        obtain ⟨i, sub⟩ := ip
        simp only at h
        obtain ⟨⟨stmts, sims⟩, w2, h2, h⟩ := pm_bind.mp h
        rw [pm_pure_iff, Prod.mk.injEq, Prod.mk.injEq] at h
        rw [← h.1.1, ← h.1.2]
        have hb : Tree.blankL stmts = Tree.blankL ts := by rw [setup_keeps K _ _ _ _ _ _ h2, k1]
        refine ⟨by simp only [Tree.blank, hb], fun p hp => ?_⟩
        cases hp
        obtain ⟨t, ht, htb⟩ := k2 i sub rfl
        obtain ⟨u, hu, hub⟩ := blankL_nth hb ht
        simp only [PTree.stmtOf, Tree.blank]
        rw [blankL_set hu (by rw [htb, hub]), hb]

omit K in
theorem or_set_keeps {stmts : List (Tree L)} {i : Nat} {a b : Tree L} (h : Tree.blank a = Tree.blank b) :
    Tree.blankL (stmts.set i a) = Tree.blankL (stmts.set i b) := by
  rw [Tree.blankL_eq, Tree.blankL_eq, List.map_set, List.map_set, h]

theorem precommit_keeps : ∀ (p p' : PTree E L P) (v : Val E) (w w' : World),
    PTree.precommit p w = .ok ((v, p'), w') → Tree.blank (PTree.stmtOf p') = Tree.blank (PTree.stmtOf p) := by
  intro p
  induction p using PTree.ind with
  | leaf p =>
    intro p' v w w' h
    simp only [PTree.precommit] at h
    obtain ⟨⟨v1, p1⟩, w1, h1, h⟩ := pm_bind.mp h
    rw [pm_pure_iff, Prod.mk.injEq, Prod.mk.injEq] at h
    rw [← h.1.2]
    simp only [PTree.stmtOf, Tree.blank, K.precommit p p1 v1 _ _ h1]
  | and s ps ih =>
    intro p' v w w' h
    simp only [PTree.precommit] at h
    obtain ⟨⟨vs, ps1⟩, w1, h1, h⟩ := pm_bind.mp h
    rw [pm_pure_iff, Prod.mk.injEq, Prod.mk.injEq] at h
    rw [← h.1.2]
    have loop : ∀ (qs : List (PTree E L P)), (∀ q ∈ qs, q ∈ ps) → ∀ (qs' : List (PTree E L P))
        (vs : List (Val E)) (w w' : World), PTree.precommitL qs w = .ok ((vs, qs'), w') →
        Tree.blankL (PTree.stmtOfL qs') = Tree.blankL (PTree.stmtOfL qs) := by
      intro qs
      induction qs with
      | nil =>
        intro _ qs' vs w w' h
        simp only [PTree.precommitL, pm_pure_iff, Prod.mk.injEq] at h
        rw [← h.1.2]
      | cons q qs ihq =>
        intro hm qs' vs w w' h
        simp only [PTree.precommitL] at h
        obtain ⟨⟨v1, q1⟩, w2, h2, h⟩ := pm_bind.mp h
        obtain ⟨⟨vs1, qs1⟩, w3, h3, h⟩ := pm_bind.mp h
        rw [pm_pure_iff, Prod.mk.injEq, Prod.mk.injEq] at h
        rw [← h.1.2]
        simp only [PTree.stmtOfL, Tree.blankL, ih q (hm q (by simp)) q1 v1 _ _ h2,
          ihq (fun t ht => hm t (by simp [ht])) qs1 vs1 _ _ h3]
    simp only [PTree.stmtOf, Tree.blank, loop ps (fun _ h => h) ps1 vs _ _ h1]
  | or s idx stmts sub sims ih =>
    intro p' v w w' h
    simp only [PTree.precommit] at h
    obtain ⟨⟨v1, sub1⟩, w1, h1, h⟩ := pm_bind.mp h
    simp only at h
    rw [pm_liftE_bind_iff] at h
    obtain ⟨vs, _, h⟩ := h
    rw [pm_pure_iff, Prod.mk.injEq, Prod.mk.injEq] at h
    rw [← h.1.2]
    simp only [PTree.stmtOf, Tree.blank, or_set_keeps (ih sub1 v1 _ _ h1)]

theorem commit_keeps : ∀ (p p' : PTree E L P) (d : Option (Dict Int)) (v : Val E) (w w' : World),
    PTree.internalCommit p d w = .ok ((v, p'), w') →
    Tree.blank (PTree.stmtOf p') = Tree.blank (PTree.stmtOf p) := by
  intro p
  induction p using PTree.ind with
  | leaf p =>
    intro p' d v w w' h
    simp only [PTree.internalCommit] at h
    obtain ⟨⟨v1, p1⟩, w1, h1, h⟩ := pm_bind.mp h
    rw [pm_pure_iff, Prod.mk.injEq, Prod.mk.injEq] at h
    rw [← h.1.2]
    simp only [PTree.stmtOf, Tree.blank, K.commit p p1 d v1 _ _ h1]
  | and s ps ih =>
    intro p' d v w w' h
    simp only [PTree.internalCommit] at h
    rw [pm_getStore_bind, pm_liftE_bind_iff] at h
    obtain ⟨_, _, h⟩ := h
    obtain ⟨d1, w0, _, h⟩ := pm_bind.mp h
    obtain ⟨⟨vs, ps1⟩, w1, h1, h⟩ := pm_bind.mp h
    rw [pm_pure_iff, Prod.mk.injEq, Prod.mk.injEq] at h
    rw [← h.1.2]
    have loop : ∀ (qs : List (PTree E L P)), (∀ q ∈ qs, q ∈ ps) → ∀ (qs' : List (PTree E L P)) (d : Dict Int)
        (vs : List (Val E)) (w w' : World), PTree.internalCommitL qs d w = .ok ((vs, qs'), w') →
        Tree.blankL (PTree.stmtOfL qs') = Tree.blankL (PTree.stmtOfL qs) := by
      intro qs
      induction qs with
      | nil =>
        intro _ qs' d vs w w' h
        simp only [PTree.internalCommitL, pm_pure_iff, Prod.mk.injEq] at h
        rw [← h.1.2]
      | cons q qs ihq =>
        intro hm qs' d vs w w' h
        simp only [PTree.internalCommitL] at h
        obtain ⟨⟨v1, q1⟩, w2, h2, h⟩ := pm_bind.mp h
        obtain ⟨⟨vs1, qs1⟩, w3, h3, h⟩ := pm_bind.mp h
        rw [pm_pure_iff, Prod.mk.injEq, Prod.mk.injEq] at h
        rw [← h.1.2]
        simp only [PTree.stmtOfL, Tree.blankL, ih q (hm q (by simp)) q1 _ v1 _ _ h2,
          ihq (fun t ht => hm t (by simp [ht])) qs1 _ vs1 _ _ h3]
    simp only [PTree.stmtOf, Tree.blank, loop ps (fun _ h => h) ps1 _ vs _ _ h1]
  | or s idx stmts sub sims ih =>
    intro p' d v w w' h
    simp only [PTree.internalCommit] at h
    rw [pm_getStore_bind, pm_liftE_bind_iff] at h
    obtain ⟨_, _, h⟩ := h
    obtain ⟨⟨v1, sub1⟩, w1, h1, h⟩ := pm_bind.mp h
    simp only at h
    rw [pm_liftE_bind_iff] at h
    obtain ⟨vs, _, h⟩ := h
    rw [pm_pure_iff, Prod.mk.injEq, Prod.mk.injEq] at h
    rw [← h.1.2]
    simp only [PTree.stmtOf, Tree.blank, or_set_keeps (ih sub1 _ v1 _ _ h1)]

theorem prove_keeps {env : Env E} {t t' : Tree L} {d : Dict Int} {msg : String} {w w' : World} {nizk : NIZK E}
    (h : prove P env t d msg w = .ok ((nizk, t'), w')) : Tree.blank t' = Tree.blank t := by
  unfold prove at h
  obtain ⟨⟨p?, t1⟩, w1, h1, h⟩ := pm_bind.mp h
  cases p? with
  | none => exact (raise_ne.mp h).elim
  | some p =>
    simp only at h
    obtain ⟨⟨n, p'⟩, w2, h2, h⟩ := pm_bind.mp h
    rw [pm_pure_iff, Prod.mk.injEq, Prod.mk.injEq] at h
    rw [← h.1.2]
    unfold PTree.getNizkProof at h2
    obtain ⟨⟨v, p1⟩, w3, h3, h2⟩ := pm_bind.mp h2
    obtain ⟨⟨com, p2⟩, w4, h4, h2⟩ := pm_bind.mp h2
    simp only at h2 h4
    rw [pm_getStore_bind, pm_liftE_bind_iff] at h2
    obtain ⟨id, _, h2⟩ := h2
    rw [pm_liftE_bind_iff] at h2
    obtain ⟨c, _, h2⟩ := h2
    obtain ⟨r, w5, _, h2⟩ := pm_bind.mp h2
    rw [pm_pure_iff, Prod.mk.injEq, Prod.mk.injEq] at h2
    rw [← h2.1.2, commit_keeps K p1 p2 none com _ _ h4, precommit_keeps K p p1 v _ _ h3,
      (getProver_keeps K d t t1 (some p) _ _ h1).2 p rfl]

theorem simulateTop_keeps {env : Env E} {t t' : Tree L} {c : Option Int} {w w' : World} {tr : Sim E}
    {hash : List UInt8} (h : simulateTop env t c w = .ok ((tr, hash, t'), w')) : Tree.blank t' = Tree.blank t := by
  unfold simulateTop at h
  obtain ⟨t1, w1, h1, h⟩ := pm_bind.mp h
  obtain ⟨tr1, w2, h2, h⟩ := pm_bind.mp h
  rw [pm_getStore_bind, pm_liftE_bind_iff] at h
  obtain ⟨id, _, h⟩ := h
  rw [pm_pure_iff, Prod.mk.injEq, Prod.mk.injEq, Prod.mk.injEq] at h
  rw [← h.1.2.2, prepare_keeps K _ _ _ _ h1, mark_keeps K]

theorem digestPrecommitment_keeps {σ : Store} {t t' : Tree L} {v : Val E}
    (h : digestPrecommitment σ (Tree.freshVerifier t) v = .ok t') : Tree.blank t' = Tree.blank t := by
  unfold digestPrecommitment at h
  split at h
  · injection h with h; rw [← h, fresh_keeps K]
  · rw [process_keeps K σ _ _ _ h, fresh_keeps K]

end

/-! ### General statements -/

theorem keepLeaf : KeepLaws (E := E) (Leaf E) (LeafProver E) where
  fresh l := by cases l <;> rfl
  mark v l := by cases l <;> rfl
  process σ l l' v h := by
    cases l with
    | dlrep s =>
      simp only [StmtOps.process, Except.map, Except.ok.injEq] at h
      rw [← h]
    | ext s =>
      simp only [StmtOps.process, Ext.process, Ext.fullConstruct] at h
      cases hc : s.spec.construct σ v with
      | error e => simp [hc, bind, Except.bind, Except.map] at h
      | ok t =>
        simp only [hc, bind_ok, Except.map, Except.ok.injEq] at h
        rw [← h]; rfl
  prepare l l' w w' h := by
    cases l with
    | dlrep s =>
      simp only [StmtOps.prepareSim] at h
      obtain ⟨s', w1, h1, h⟩ := pm_bind.mp h
      rw [pm_pure_iff, Prod.mk.injEq] at h h1
      rw [← h.1, ← h1.1]
    | ext s =>
      simp only [StmtOps.prepareSim, Ext.prepareSim, Ext.fullConstruct] at h
      obtain ⟨s', w1, h1, h⟩ := pm_bind.mp h
      obtain ⟨v, w2, _, h1⟩ := pm_bind.mp h1
      rw [pm_getStore_bind, liftE_iff] at h1
      obtain ⟨h1, _⟩ := h1
      obtain ⟨t, _, h1⟩ := bind_ok_iff.mp h1
      injection h1 with h1
      rw [pm_pure_iff, Prod.mk.injEq] at h
      rw [← h.1]
      have e : s' = _ := h1.symm
      rw [e]; rfl
  getProver l l' d p? w w' h := by
    cases l with
    | dlrep s =>
      simp only [ProverOps.getProver] at h
      obtain ⟨⟨q?, s'⟩, w1, h1, h⟩ := pm_bind.mp h
      rw [pm_pure_iff, Prod.mk.injEq, Prod.mk.injEq] at h
      rw [← h.1.1, ← h.1.2]
      simp only [DLRepProver.getProver] at h1
      rw [pm_getStore_bind] at h1
      split at h1
      · rw [pm_pure_iff, Prod.mk.injEq, Prod.mk.injEq] at h1
        rw [← h1.1.1, ← h1.1.2]
        exact ⟨rfl, by simp⟩
      · rw [pm_pure_iff, Prod.mk.injEq, Prod.mk.injEq] at h1
        rw [← h1.1.1, ← h1.1.2]
        refine ⟨rfl, fun p hp => ?_⟩
        simp only [Option.map_some, Option.some.injEq] at hp
        subst hp; rfl
    | ext s =>
      simp only [ProverOps.getProver] at h
      obtain ⟨⟨q?, s'⟩, w1, h1, h⟩ := pm_bind.mp h
      rw [pm_pure_iff, Prod.mk.injEq, Prod.mk.injEq] at h
      rw [← h.1.1, ← h.1.2]
      simp only [ExtProver.getProver] at h1
      rw [pm_getStore_bind, pm_setStore_bind, pm_pure_iff, Prod.mk.injEq, Prod.mk.injEq] at h1
      rw [← h1.1.1, ← h1.1.2]
      refine ⟨rfl, fun p hp => ?_⟩
      simp only [Option.map_some, Option.some.injEq] at hp
      subst hp; rfl
  precommit p p' v w w' h := by
    cases p with
    | dlrep p =>
      simp only [ProverOps.precommit, pm_pure_iff, Prod.mk.injEq] at h
      rw [← h.1.2]
    | ext p =>
      simp only [ProverOps.precommit] at h
      obtain ⟨⟨v1, p1⟩, w1, h1, h⟩ := pm_bind.mp h
      rw [pm_pure_iff, Prod.mk.injEq, Prod.mk.injEq] at h
      rw [← h.1.2]
      simp only [ExtProver.precommit] at h1
      obtain ⟨v2, w2, _, h1⟩ := pm_bind.mp h1
      rw [pm_getStore_bind, pm_liftE_bind_iff] at h1
      obtain ⟨s', h2, h1⟩ := h1
      rw [pm_liftE_bind_iff] at h1
      obtain ⟨t, _, h1⟩ := h1
      obtain ⟨⟨cp, t'⟩, w3, _, h1⟩ := pm_bind.mp h1
      rw [pm_pure_iff, Prod.mk.injEq, Prod.mk.injEq] at h1
      rw [← h1.1.2]
      simp only [Ext.fullConstruct] at h2
      obtain ⟨t2, _, h2⟩ := bind_ok_iff.mp h2
      injection h2 with h2
      subst h2
      rfl
  commit p p' d v w w' h := by
    cases p with
    | dlrep p =>
      simp only [ProverOps.internalCommit] at h
      obtain ⟨⟨v1, p1⟩, w1, h1, h⟩ := pm_bind.mp h
      rw [pm_pure_iff, Prod.mk.injEq, Prod.mk.injEq] at h
      rw [← h.1.2]
      simp only [DLRepProver.internalCommit] at h1
      obtain ⟨d', w2, _, h1⟩ := pm_bind.mp h1
      rw [pm_getStore_bind, pm_liftE_bind_iff] at h1
      obtain ⟨ks, _, h1⟩ := h1
      rw [pm_liftE_bind_iff] at h1
      obtain ⟨com, _, h1⟩ := h1
      rw [pm_pure_iff, Prod.mk.injEq, Prod.mk.injEq] at h1
      rw [← h1.1.2]
      rfl
    | ext p =>
      simp only [ProverOps.internalCommit] at h
      obtain ⟨⟨v1, p1⟩, w1, h1, h⟩ := pm_bind.mp h
      rw [pm_pure_iff, Prod.mk.injEq, Prod.mk.injEq] at h
      rw [← h.1.2]
      simp only [ExtProver.internalCommit] at h1
      cases hc : p.stmt.constructed with
      | none => simp only [hc] at h1; exact (raise_ne.mp h1).elim
      | some t =>
        simp only [hc] at h1
        cases hp : p.constructed with
        | none => simp only [hp] at h1; exact (raise_ne.mp h1).elim
        | some cp =>
          simp only [hp] at h1
          obtain ⟨⟨v2, cp'⟩, w2, _, h1⟩ := pm_bind.mp h1
          rw [pm_pure_iff, Prod.mk.injEq, Prod.mk.injEq] at h1
          rw [← h1.1.2]
          rfl

theorem sameStmt_iff : ∀ (t t' : Stmt E), SameStmt t t' ↔ Tree.blank t' = Tree.blank t := by
  have lists : ∀ (ts ts' : List (Stmt E)), (∀ t ∈ ts, ∀ t', SameStmt t t' ↔ Tree.blank t' = Tree.blank t) →
      ((ts'.length = ts.length ∧ ∀ (i : Nat) t t', ts[i]? = some t → ts'[i]? = some t' → SameStmt t t') ↔
        Tree.blankL ts' = Tree.blankL ts) := by
    intro ts ts' ih
    rw [Tree.blankL_eq, Tree.blankL_eq]
    constructor
    · rintro ⟨hl, h⟩
      refine List.ext_getElem? fun i => ?_
      rw [List.getElem?_map, List.getElem?_map]
      by_cases hi : i < ts.length
      · have h1 : ts[i]? = some ts[i] := List.getElem?_eq_getElem _
        have h2 : ts'[i]? = some (ts'[i]'(by omega)) := List.getElem?_eq_getElem _
        rw [h1, h2, Option.map_some, Option.map_some,
          (ih _ (List.getElem_mem hi) _).mp (h i _ _ h1 h2)]
      · rw [List.getElem?_eq_none (by omega), List.getElem?_eq_none (by omega)]
    · intro h
      refine ⟨by simpa using congrArg List.length h, fun i t t' h1 h2 => ?_⟩
      have := congrArg (fun l => l[i]?) h
      simp only [List.getElem?_map, h1, h2, Option.map_some, Option.some.injEq] at this
      exact (ih t (List.mem_of_getElem? h1) t').mpr this
  intro t
  induction t using Tree.ind with
  | leaf l =>
    intro t'
    constructor
    · intro h
      cases h with
      | rep s s' hl hb hx => simp [Tree.blank, Blank.blank, DLRep.norm, hl, hb, hx]
      | ext s s' h => simp [Tree.blank, Blank.blank, h]
    · intro h
      obtain ⟨l', e, hb⟩ := Tree.blank_leaf_inv h
      clear h
      subst e
      rename' hb => h
      cases l with
      | dlrep s =>
        cases l' with
        | dlrep s' =>
          simp only [Blank.blank, Leaf.dlrep.injEq] at h
          exact .rep s s' (by have := congrArg DLRep.lhs h; exact this)
            (by have := congrArg DLRep.bases h; exact this) (by have := congrArg DLRep.secretVars h; exact this)
        | ext s' => simp [Blank.blank] at h
      | ext s =>
        cases l' with
        | dlrep s' => simp [Blank.blank] at h
        | ext s' =>
          simp only [Blank.blank, Leaf.ext.injEq, Ext.mk.injEq, and_true] at h
          exact .ext s s' h
  | and b ts ih =>
    intro t'
    constructor
    · intro h
      cases h with
      | all _ b' _ ts' hl h => simp only [Tree.blank, (lists ts ts' ih).mp ⟨hl, h⟩]
    · intro h
      obtain ⟨b', ts', e, hb⟩ := Tree.blank_and_inv h
      subst e
      obtain ⟨h1, h2⟩ := (lists ts ts' ih).mpr hb
      exact .all _ _ _ _ h1 h2
  | or b ts ih =>
    intro t'
    constructor
    · intro h
      cases h with
      | any _ b' _ ts' hl h => simp only [Tree.blank, (lists ts ts' ih).mp ⟨hl, h⟩]
    · intro h
      obtain ⟨b', ts', e, hb⟩ := Tree.blank_or_inv h
      subst e
      obtain ⟨h1, h2⟩ := (lists ts ts' ih).mpr hb
      exact .any _ _ _ _ h1 h2

theorem after_same {t t' : Stmt E} (h : Later t t') : SameStmt t t' := by
  rw [sameStmt_iff]
  induction h with
  | refl => rfl
  | verify t1 t2 _ σ v hv ih => rw [digestPrecommitment_keeps keepLeaf hv, ih]
  | prove t1 t2 _ env d msg w w' nizk hp ih => rw [prove_keeps keepLeaf hp, ih]
  | simulate t1 t2 _ env c w w' tr hash hs ih => rw [simulateTop_keeps (P := LeafProver E) keepLeaf hs, ih]

/-! ### Verification -/

theorem embed_same : ∀ (k : Core E) (t' : Stmt E), SameStmt (embed k) t' →
    ∃ k', t' = embed k' ∧ Tree.blank k' = Tree.blank k := by
  have lists : ∀ (ks : List (Core E)) (ts' : List (Stmt E)), (∀ k ∈ ks, ∀ t', SameStmt (embed k) t' →
      ∃ k', t' = embed k' ∧ Tree.blank k' = Tree.blank k) → ts'.length = (embedL ks).length →
      (∀ (i : Nat) t t', (embedL ks)[i]? = some t → ts'[i]? = some t' → SameStmt t t') →
      ∃ ks', ts' = embedL ks' ∧ Tree.blankL ks' = Tree.blankL ks := by
    intro ks
    induction ks with
    | nil =>
      intro ts' _ hl _
      have : ts' = [] := List.length_eq_zero_iff.mp hl
      subst this
      exact ⟨[], rfl, rfl⟩
    | cons k ks ih =>
      intro ts' hm hl h
      cases ts' with
      | nil => simp [embedL] at hl
      | cons t' ts' =>
        obtain ⟨k', rfl, e1⟩ := hm k (by simp) t' (h 0 _ _ rfl rfl)
        obtain ⟨ks', rfl, e2⟩ := ih ts' (fun k hk => hm k (by simp [hk])) (by simpa [embedL] using hl)
          (fun i t t' h1 h2 => h (i + 1) t t' (by simpa [embedL] using h1) (by simpa using h2))
        exact ⟨k' :: ks', rfl, by simp only [Tree.blankL, e1, e2]⟩
  intro k
  induction k using Tree.ind with
  | leaf s =>
    intro t' h
    simp only [embed] at h
    cases h with
    | rep _ s' hl hb hx => exact ⟨.leaf s', rfl, by simp [Tree.blank, Blank.blank, DLRep.norm, hl, hb, hx]⟩
  | and b ks ih =>
    intro t' h
    simp only [embed] at h
    cases h with
    | all _ b' _ ts' hl h =>
      obtain ⟨ks', rfl, e⟩ := lists ks ts' ih hl h
      exact ⟨.and b' ks', rfl, by simp only [Tree.blank, e]⟩
  | or b ks ih =>
    intro t' h
    simp only [embed] at h
    cases h with
    | any _ b' _ ts' hl h =>
      obtain ⟨ks', rfl, e⟩ := lists ks ts' ih hl h
      exact ⟨.or b' ks', rfl, by simp only [Tree.blank, e]⟩

theorem digested_same {σ : Store} {t : Stmt E} {v : Val E} {S : Skel E} {k : Core E} (h : Digested σ t v S k) :
    ∀ t', SameStmt t t' → ∃ k', Digested σ t' v S k' ∧ Tree.blank k' = Tree.blank k := by
  have lists : ∀ (ts ts' : List (Stmt E)) (ks : List (Core E)) (Ss : List (Skel E)) (vi : Nat → Val E),
      Ss.length = ts.length → ks.length = ts.length → ts'.length = ts.length →
      (∀ (i : Nat) t S k, ts[i]? = some t → Ss[i]? = some S → ks[i]? = some k →
        ∀ t', SameStmt t t' → ∃ k', Digested σ t' (vi i) S k' ∧ Tree.blank k' = Tree.blank k) →
      (∀ (i : Nat) t t', ts[i]? = some t → ts'[i]? = some t' → SameStmt t t') →
      ∃ ks' : List (Core E), ks'.length = ts.length ∧ Tree.blankL ks' = Tree.blankL ks ∧
        ∀ (i : Nat) t' S k', ts'[i]? = some t' → Ss[i]? = some S → ks'[i]? = some k' →
          Digested σ t' (vi i) S k' := by
    intro ts
    induction ts with
    | nil =>
      intro ts' ks Ss vi h1 h2 h3 _ _
      have hk : ks = [] := List.length_eq_zero_iff.mp h2
      have ht : ts' = [] := List.length_eq_zero_iff.mp h3
      subst hk; subst ht
      exact ⟨[], rfl, rfl, by simp⟩
    | cons t ts ih =>
      intro ts' ks Ss vi h1 h2 h3 hd hs
      cases ts' with
      | nil => simp at h3
      | cons t' ts' =>
      cases ks with
      | nil => simp at h2
      | cons k ks =>
      cases Ss with
      | nil => simp at h1
      | cons S Ss =>
      obtain ⟨k', e1, e2⟩ := hd 0 t S k rfl rfl rfl t' (hs 0 t t' rfl rfl)
      obtain ⟨ks', f1, f2, f3⟩ := ih ts' ks Ss (fun i => vi (i + 1)) (by simpa using h1) (by simpa using h2)
        (by simpa using h3) (fun i t S k g1 g2 g3 => hd (i + 1) t S k g1 g2 g3)
        (fun i t t' g1 g2 => hs (i + 1) t t' g1 g2)
      refine ⟨k' :: ks', by simp [f1], by simp only [Tree.blankL, e2, f2], fun i u R q g1 g2 g3 => ?_⟩
      cases i with
      | zero =>
        simp only [List.getElem?_cons_zero, Option.some.injEq] at g1 g2 g3
        subst g1; subst g2; subst g3
        exact e1
      | succ i => exact f3 i u R q g1 g2 g3
  induction h with
  | bare k =>
    intro t' ht
    obtain ⟨k', rfl, e⟩ := embed_same k t' ht
    refine ⟨k', ?_, e⟩
    rw [← (shape_blank _ _ e).1]
    exact .bare k'
  | rep s v =>
    intro t' ht
    cases ht with
    | rep _ s' hl hb hx =>
      refine ⟨.leaf s', ?_, by simp [Tree.blank, Blank.blank, DLRep.norm, hl, hb, hx]⟩
      rw [← hl, ← hb, ← hx]
      exact .rep s' v
  | ext s v t hc hv =>
    intro t' ht
    cases ht with
    | ext _ s' hs =>
      refine ⟨t, ?_, rfl⟩
      rw [← hs] at hc hv ⊢
      exact .ext s' v t hc hv
  | all b ts v vi Ss ks hv hS hk hvi _ ih =>
    intro t' ht
    cases ht with
    | all _ b' _ ts' hl hs =>
      obtain ⟨ks', e1, e2, e3⟩ := lists ts ts' ks Ss vi hS hk hl ih hs
      exact ⟨.and b' ks', .all b' ts' v vi Ss ks' hv (by omega) (by omega) (fun i hi => hvi i (by omega)) e3,
        by simp only [Tree.blank, e2]⟩
  | any b ts v vi Ss ks hv hS hk hvi _ ih =>
    intro t' ht
    cases ht with
    | any _ b' _ ts' hl hs =>
      obtain ⟨ks', e1, e2, e3⟩ := lists ts ts' ks Ss vi hS hk hl ih hs
      exact ⟨.or b' ks', .any b' ts' v vi Ss ks' hv (by omega) (by omega) (fun i hi => hvi i (by omega)) e3,
        by simp only [Tree.blank, e2]⟩

theorem sameStmt_symm {t t' : Stmt E} (h : SameStmt t t') : SameStmt t' t := by
  rw [sameStmt_iff] at h ⊢
  exact h.symm

theorem verify_same {env : Env E} {σ : Store} {t t' : Stmt E} {nizk : NIZK E} {msg : String} {b : Bool}
    (hs : SameStmt t t') (h : verify env σ t nizk msg = .ok b) : verify env σ t' nizk msg = .ok b := by
  rw [verify_iff] at h ⊢
  obtain ⟨S, k, id, com, ρ, c, hd, hid, hh, hρ, hcom, hc, hb⟩ := h
  have key : ∀ k', Tree.blank k' = Tree.blank k → DigestedTop σ t' nizk.precommitment S k' →
      ∃ S k id com ρ c, DigestedTop σ t' nizk.precommitment S k ∧
      IsId S ((secrets k).map σ.name) id ∧ nizk.stmtHash = env.digest id ∧
      Agree σ k nizk.responses ρ ∧ Eqns k nizk.challenge nizk.responses com ∧
      env.fiatShamir id nizk.precommitment com msg = .ok c ∧ b = decide (nizk.challenge = c) := by
    intro k' hk hd'
    obtain ⟨e1, e2⟩ := shape_blank k' k hk
    have hcom' : Eqns k' nizk.challenge nizk.responses com := by
      rw [← recompute_iff, recompute_skel k' k _ _ e1, recompute_iff]; exact hcom
    obtain ⟨ρ', hρ'⟩ := preVerification_core.mp (preVerification_weaken e1
      (by rw [e2]; exact seesAs_refl σ _) (preVerification_core.mpr ⟨ρ, hρ⟩))
    exact ⟨S, k', id, com, ρ', c, hd', by rw [e2]; exact hid, hh, hρ', hcom', hc, hb⟩
  rcases hd with ⟨h1, rfl, rfl⟩ | ⟨h1, h2⟩
  · obtain ⟨k', rfl, e⟩ := embed_same k t' hs
    exact key k' e (.inl ⟨h1, rfl, ((shape_blank _ _ e).1).symm⟩)
  · obtain ⟨k', e1, e2⟩ := digested_same h2 t' hs
    exact key k' e2 (.inr ⟨h1, e1⟩)

end Zksk
