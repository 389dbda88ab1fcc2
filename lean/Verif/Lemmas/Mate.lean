import Verif.Lemmas.SimCore
import Verif.Lemmas.PretendRun

/-! Provers of compositions with extended parts, and provers of outsiders. -/

set_option linter.unusedSectionVars false

namespace Zksk.Clause

open Spec Peer

variable {E : Type} [AddCommGroup E] [DecidableEq E]

/-- Provers of the same shape with the same simulations, whose leaves are related. -/
inductive Mated (R : LeafProver E → LeafProver E → Prop) : StmtProver E → StmtProver E → Prop
  | leaf (p p' : LeafProver E) (h : R p p') : Mated R (.leaf p) (.leaf p')
  | and (b b' : Bool) (ps ps' : List (StmtProver E)) (l : ps'.length = ps.length)
      (h : ∀ (i : Nat) p p', ps[i]? = some p → ps'[i]? = some p' → Mated R p p') : Mated R (.and b ps) (.and b' ps')
  | or (b b' : Bool) (i : Nat) (us us' : List (Stmt E)) (p p' : StmtProver E) (sims : List (Sim E))
      (l : us'.length = us.length) (hi : i < us.length) (ls : sims.length + 1 = us.length)
      (hc : ∀ (j : Nat) u u', j ≠ i → us[j]? = some u → us'[j]? = some u' →
        Tree.core u' = Tree.core u ∧ Tree.skel u' = Tree.skel u)
      (h : Mated R p p') : Mated R (.or b i us p sims) (.or b' i us' p' sims)

/-- Leaves before precommitting. -/
def Before (F : Profile E) (M : Nat) (σ σs : Store) (d : Dict Int) : LeafProver E → LeafProver E → Prop
  | .dlrep p, .dlrep p' => p'.stmt.norm = p.stmt.norm
  | .ext p, .ext p' => publicLeaf (.ext p'.stmt) = publicLeaf (.ext p.stmt) ∧ LeafHides F M σ σs d (.ext p.stmt)
  | _, _ => False

/-- Leaves after precommitting. -/
def After : LeafProver E → LeafProver E → Prop
  | .dlrep p, .dlrep p' => p'.stmt.norm = p.stmt.norm
  | .ext p, .ext p' => ∃ k k', p.stmt.constructed = some k ∧ p'.stmt.constructed = some k' ∧
      Tree.blank k' = Tree.blank k ∧ OrFree k ∧ p'.stmt.spec.cls = p.stmt.spec.cls ∧
      p'.stmt.precommitment = p.stmt.precommitment
  | _, _ => False

theorem coreL_congr : ∀ (ts us : List (Stmt E)), us.length = ts.length →
    (∀ (i : Nat) t u, ts[i]? = some t → us[i]? = some u → Tree.core u = Tree.core t ∧ Tree.skel u = Tree.skel t) →
    Tree.coreL us = Tree.coreL ts ∧ Tree.skelL us = Tree.skelL ts
  | [], [], _, _ => ⟨rfl, rfl⟩
  | [], _ :: _, h, _ => by simp at h
  | _ :: _, [], h, _ => by simp at h
  | t :: ts, u :: us, hl, h => by
    obtain ⟨h1, h2⟩ := h 0 t u rfl rfl
    obtain ⟨h3, h4⟩ := coreL_congr ts us (by simpa using hl) fun i t u ht hu => h (i + 1) t u ht hu
    simp only [Tree.coreL, Tree.skelL, h1, h2, h3, h4, and_self]

theorem mated_core {p p' : StmtProver E} (h : Mated After p p') :
    Tree.core (PTree.stmtOf p') = Tree.core (PTree.stmtOf p) ∧
    Tree.skel (PTree.stmtOf p') = Tree.skel (PTree.stmtOf p) := by
  induction h with
  | leaf p p' h =>
    cases p with
    | dlrep p =>
      cases p' with
      | ext _ => exact h.elim
      | dlrep p' =>
      have h : p'.stmt.norm = p.stmt.norm := h
      obtain ⟨n1, n2, n3⟩ := norm_fields h
      constructor
      · simp [PTree.stmtOf, ProverOps.stmtOf, Tree.core, StmtView.core, h]
      · simp [PTree.stmtOf, ProverOps.stmtOf, Tree.skel, StmtView.skel, n1, n2, n3]
    | ext p =>
      cases p' with
      | dlrep _ => exact h.elim
      | ext p' =>
      obtain ⟨k, k', h1, h2, h3, _, h4, h5⟩ := h
      constructor
      · simp [PTree.stmtOf, ProverOps.stmtOf, Tree.core, StmtView.core, core_blank, h1, h2, h3]
      · simp [PTree.stmtOf, ProverOps.stmtOf, Tree.skel, StmtView.skel, skel_core, h1, h2, h4, h5, (shape_blank _ _ h3).1]
  | and b b' ps ps' l h ih =>
    have key := coreL_congr (PTree.stmtOfL ps) (PTree.stmtOfL ps') (by simp [stmtOfL_eq, l]) (by
      intro i t u ht hu
      rw [stmtOfL_eq, List.getElem?_map, Option.map_eq_some_iff] at ht hu
      obtain ⟨p, hp, rfl⟩ := ht
      obtain ⟨p', hp', rfl⟩ := hu
      exact ih i p p' hp hp')
    simp only [PTree.stmtOf, Tree.core, Tree.skel, key.1, key.2, and_self]
  | or b b' i us us' p p' sims l hi ls hc h ih =>
    have key := coreL_congr (us.set i (PTree.stmtOf p)) (us'.set i (PTree.stmtOf p')) (by simp [l]) (by
      intro j t u ht hu
      by_cases hj : j = i
      · subst hj
        rw [List.getElem?_set_self (by omega)] at ht hu
        injection ht with ht
        injection hu with hu
        subst ht; subst hu
        exact ih
      · rw [List.getElem?_set_ne (Ne.symm hj)] at ht hu
        exact hc j t u hj ht hu)
    simp only [PTree.stmtOf, Tree.core, Tree.skel, key.1, key.2, and_self]

/-! ### Obtaining provers -/

theorem candidates_simulated : ∀ (ts ts' : List (Stmt E)) (n : Nat), ts'.length = ts.length →
    (∀ (i : Nat) t t', ts[i]? = some t → ts'[i]? = some t' → t'.simulated = t.simulated) →
    PTree.candidates ts' n = PTree.candidates ts n
  | [], [], _, _, _ => rfl
  | [], _ :: _, _, h, _ => by simp at h
  | _ :: _, [], _, h, _ => by simp at h
  | t :: ts, t' :: ts', n, hl, h => by
    have ih := candidates_simulated ts ts' (n + 1) (by simpa using hl) fun i u u' hu hu' => h (i + 1) u u' hu hu'
    simp only [PTree.candidates, ih, h 0 t t' rfl rfl]

theorem placed_inside {F : Profile E} : ∀ (t : Stmt E), (∀ e : Ext E, HasLeaf (Leaf.ext e) t → ¬ F.outside e.spec) → Placed F t := by
  intro t
  induction t using Tree.ind with
  | leaf l => intro _; exact .leaf l
  | and b subs ih => intro h; exact .all b subs fun t ht => ih t ht fun e he => h e (.all b subs t ht he)
  | or b subs _ => intro h; exact .any b subs h

/-- The assumptions about a prover and an outsider, for one statement. -/
structure Match (F : Profile E) (q M : Nat) (Z : ExtSpec E → Val E → Prop) (σ σs : Store) (d d' : Dict Int)
    (t u : Stmt E) : Prop where
  out : Outsider σs d' t u
  sound : EveryLeaf (LeafSound F q σ Z) t
  holds : ProvedLeaf (LeafTrue F q σ d Z) t
  blind : EveryLeaf (LeafBlind M σ σs) t
  hides : ProvedLeaf (LeafHides F M σ σs d) t
  placed : Placed F t
  names : ∀ x y, AtLeaf (leafOccurs F) t x → AtLeaf (leafOccurs F) t y → (σs.key x = σs.key y ↔ σ.key x = σ.key y)

section
variable {F : Profile E} {q M : Nat} {Z : ExtSpec E → Val E → Prop} {σ σs : Store} {d d' : Dict Int}

/-- Results of `get_prover`. -/
def Got (F : Profile E) (M : Nat) (σ σs : Store) (d : Dict Int) (a : Option (StmtProver E) × Stmt E) (τ : Store)
    (b : Option (StmtProver E) × Stmt E) (τ' : Store) : Prop :=
  (τ = σ ∧ τ' = σs) ∧ ∃ p p', a.1 = some p ∧ b.1 = some p' ∧ Mated (Before F M σ σs d) p p'

theorem getL_couple {F : Profile E} {M : Nat} {σ σs : Store} {d d' : Dict Int} : ∀ (ts us : List (Stmt E)), us.length = ts.length →
    (∀ (i : Nat) t u, ts[i]? = some t → us[i]? = some u →
      Couple M (Got F M σ σs d) (starting σ (PTree.getProver t d)) (starting σs (PTree.getProver u d'))) →
    Couple M (fun (a : List (Option (StmtProver E)) × List (Stmt E)) τ (b : List (Option (StmtProver E)) × List (Stmt E)) τ' =>
        (τ = σ ∧ τ' = σs) ∧ ∃ ps ps' : List (StmtProver E), a.1 = ps.map some ∧ b.1 = ps'.map some ∧
          ps'.length = ps.length ∧
          ∀ (i : Nat) p p', ps[i]? = some p → ps'[i]? = some p' → Mated (Before F M σ σs d) p p')
      (starting σ (PTree.getProverL ts d)) (starting σs (PTree.getProverL us d'))
  | [], [], _, _ => .pure ⟨⟨rfl, rfl⟩, [], [], rfl, rfl, rfl, by simp⟩
  | [], _ :: _, h, _ => by simp at h
  | _ :: _, [], h, _ => by simp at h
  | t :: ts, u :: us, hl, h => by
    simp only [PTree.getProverL]
    refine .bind (h 0 t u rfl rfl) ?_
    rintro ⟨p?, t1⟩ τ ⟨p?', t1'⟩ τ' ⟨⟨rfl, rfl⟩, p, p', e, e', hm⟩
    simp only at e e'
    subst e; subst e'
    refine .bind (getL_couple ts us (by simpa using hl) fun i t u ht hu => h (i + 1) t u ht hu) ?_
    rintro ⟨qs, ts1⟩ τ ⟨qs', us1⟩ τ' ⟨⟨rfl, rfl⟩, ps, ps', e, e', g1, g2⟩
    simp only at e e'
    subst e; subst e'
    refine .pure ⟨⟨rfl, rfl⟩, p :: ps, p' :: ps', rfl, rfl, by simp [g1], fun i a b ha hb => ?_⟩
    cases i with
    | zero =>
      simp only [List.getElem?_cons_zero, Option.some.injEq] at ha hb
      subst ha; subst hb
      exact hm
    | succ i => exact g2 i a b ha hb

theorem get_couple (hM : M ≠ 0) (hu : d.Uniq σ) (hu' : d'.Uniq σs) (hst : updateSecretValues σ d = σ)
    (hst' : updateSecretValues σs d' = σs) {t u : Stmt E} (ho : Outsider σs d' t u) :
    Match F q M Z σ σs d d' t u →
    Couple M (Got F M σ σs d) (starting σ (PTree.getProver t d)) (starting σs (PTree.getProver u d')) := by
  induction ho with
  | rep s s' h hv =>
    intro hm
    have hn : s'.norm = s.norm := by
      simp only [publicLeaf, Leaf.dlrep.injEq] at h
      exact h
    have hs : Solid (.leaf s) ∧ Torsion (.leaf s) := by cases hm.sound with | leaf _ h => exact ⟨h.1, h.2.1⟩
    have hg : ∀ x ∈ s.secretVars, (given σ d s x).isSome := by
      cases hm.holds with
      | leaf _ h =>
        have h : Satisfied σ d valueOf (.leaf s) := h
        cases h with
        | rep _ hv _ => intro x hx; rw [hv x hx]; rfl
    obtain ⟨hs', _⟩ := solidRep_norm hn ⟨hs.1, hs.2⟩
    obtain ⟨p, s1, a1, a2, a3⟩ := Ward.get_rep_any (σ := σ) hs.1 hu hg
    obtain ⟨p', s1', b1, b2, b3⟩ := Ward.get_rep_any (σ := σs) hs' hu' hv
    refine .ends (a := (some (.leaf (.dlrep p)), .leaf (.dlrep s1))) (b := (some (.leaf (.dlrep p')), .leaf (.dlrep s1')))
      ⟨⟨rfl, rfl⟩, _, _, rfl, rfl, .leaf _ _ (show p'.stmt.norm = p.stmt.norm by rw [b2, hn, a2])⟩ (fun r => ?_) fun r => ?_
    · simp only [PTree.getProver, ProverOps.getProver, bind_assoc]
      rw [pm_bind_eq (a1 r)]
      rfl
    · simp only [PTree.getProver, ProverOps.getProver, bind_assoc]
      rw [pm_bind_eq (b1 r)]
      rfl
  | ext s s' h =>
    intro hm
    have hh : LeafHides F M σ σs d (.ext s) := by cases hm.hides with | leaf _ h => exact h
    refine .ends (a := (some (.leaf (.ext ⟨s, d, none⟩)), .leaf (.ext s)))
      (b := (some (.leaf (.ext ⟨s', d', none⟩)), .leaf (.ext s')))
      ⟨⟨rfl, rfl⟩, _, _, rfl, rfl, .leaf _ _ ⟨h, hh⟩⟩ (fun r => ?_) fun r => ?_
    · simp only [PTree.getProver, ProverOps.getProver, ExtProver.getProver, bind_assoc]
      rw [pm_getStore_bind, pm_setStore_bind]
      simp only [hst]
      rfl
    · simp only [PTree.getProver, ProverOps.getProver, ExtProver.getProver, bind_assoc]
      rw [pm_getStore_bind, pm_setStore_bind]
      simp only [hst']
      rfl
  | all subs subs' hl h ih =>
    intro hm
    simp only [PTree.getProver]
    refine .get ?_
    rw [hst, hst']
    refine .bind (Couple.ends (Q := fun _ τ _ τ' => τ = σ ∧ τ' = σs) ⟨rfl, rfl⟩ (fun _ => rfl) fun _ => rfl) ?_
    rintro _ τ _ τ' ⟨rfl, rfl⟩
    simp only [Bool.false_eq_true, if_false]
    refine .bind (getL_couple (F := F) subs subs' hl fun i t u ht hu => ?_) ?_
    · have hmem := List.mem_of_getElem? ht
      refine ih i t u ht hu ⟨h i t u ht hu, ?_, ?_, ?_, ?_, ?_, fun x y hx hy => hm.names x y (.all _ _ t x hmem hx) (.all _ _ t y hmem hy)⟩
      · cases hm.sound with | all _ _ _ h => exact h t hmem
      · cases hm.holds with | all _ h => exact h t hmem
      · cases hm.blind with | all _ _ _ h => exact h t hmem
      · cases hm.hides with | all _ h => exact h t hmem
      · cases hm.placed with | all _ _ h => exact h t hmem
    · rintro ⟨qs, ts1⟩ τ ⟨qs', us1⟩ τ' ⟨⟨rfl, rfl⟩, ps, ps', e, e', g1, g2⟩
      simp only at e e'
      subst e; subst e'
      simp only [Peer.allSome_map]
      exact .pure ⟨⟨rfl, rfl⟩, _, _, rfl, rfl, .and _ _ ps ps' g1 g2⟩
  | any subs subs' hl hp h ih =>
    intro hm
    have hsound : ∀ t ∈ subs, EveryLeaf (LeafSound F q σ Z) t := by cases hm.sound with | any _ _ _ h => exact h
    have hblind : ∀ t ∈ subs, EveryLeaf (LeafBlind M σ σs) t := by cases hm.blind with | any _ _ _ h => exact h
    have hplaced : ∀ t ∈ subs, ∀ e : Ext E, HasLeaf (Leaf.ext e) t → ¬ F.outside e.spec := by
      cases hm.placed with | any _ _ h => exact fun t ht e he => h e (.any _ _ t ht he)
    have hnames : ∀ t ∈ subs, ∀ x y, AtLeaf (leafOccurs F) t x → AtLeaf (leafOccurs F) t y →
        (σs.key x = σs.key y ↔ σ.key x = σ.key y) := fun t ht x y hx hy =>
      hm.names x y (.any _ _ t x ht hx) (.any _ _ t y ht hy)
    have hex : ∃ t ∈ subs, t.simulated = false := by cases hm.holds with | any _ h _ => exact h
    simp only [PTree.getProver]
    refine .get ?_
    rw [hst, hst']
    refine .bind (Couple.ends (Q := fun _ τ _ τ' => τ = σ ∧ τ' = σs) ⟨rfl, rfl⟩ (fun _ => rfl) fun _ => rfl) ?_
    rintro _ τ _ τ' ⟨rfl, rfl⟩
    simp only [Bool.false_eq_true, if_false]
    rw [candidates_simulated subs subs' 0 hl fun i t t' ht ht' => (hp i t t' ht ht').2]
    have hne : PTree.candidates subs 0 ≠ [] := by
      obtain ⟨t, ht, hs⟩ := hex
      obtain ⟨i, hi⟩ := List.getElem?_of_mem ht
      exact List.ne_nil_of_mem ((Zksk.mem_candidates subs 0 i).mpr ⟨Nat.zero_le _, t, by simpa using hi, hs⟩)
    obtain ⟨n, hn⟩ : ∃ n, (PTree.candidates subs 0).length = n + 1 := by
      cases hc : PTree.candidates subs 0 with
      | nil => exact (hne hc).elim
      | cons a l => exact ⟨l.length, rfl⟩
    rw [hn]
    have hloop : Couple M (fun (a : Option (Nat × StmtProver E) × List (Stmt E)) ρ (b : Option (Nat × StmtProver E) × List (Stmt E)) ρ' =>
        (ρ = τ ∧ ρ' = τ') ∧ ∃ i p p' t1 u1, i < subs.length ∧ a = (some (i, p), subs.set i t1) ∧ b = (some (i, p'), subs'.set i u1) ∧
          Mated (Before F M τ τ' d) p p')
        (starting τ (PTree.orLoop (PTree.getProverActs subs d) (n + 1) (PTree.candidates subs 0) subs))
        (starting τ' (PTree.orLoop (PTree.getProverActs subs' d') (n + 1) (PTree.candidates subs 0) subs')) := by
      simp only [PTree.orLoop]
      rw [if_neg (by simpa using hne), if_neg (by simpa using hne)]
      refine .bind ((choice_same hne).couple hM) ?_
      rintro i ρ i' ρ' ⟨⟨rfl, hi⟩, rfl, rfl⟩
      obtain ⟨_, t, ht, hs⟩ := (Zksk.mem_candidates subs 0 i).mp hi
      rw [Nat.sub_zero] at ht
      have hlt := (List.getElem?_eq_some_iff.mp ht).1
      have hu1 : subs'[i]? = some (subs'[i]'(hl ▸ hlt)) := List.getElem?_eq_getElem _
      have hmem := List.mem_of_getElem? ht
      rw [Zksk.acts_get, Zksk.acts_get, ht, hu1]
      simp only [Option.map_some]
      refine .bind (ih i t _ ht hu1 hs ⟨h i t _ ht hu1 hs, hsound t hmem, ?_, hblind t hmem, ?_, placed_inside t (hplaced t hmem),
        hnames t hmem⟩) ?_
      · cases hm.holds with | any _ _ h => exact h t hmem hs
      · cases hm.hides with | any _ _ h => exact h t hmem hs
      · rintro ⟨p?, t1⟩ ρ ⟨p?', u1⟩ ρ' ⟨⟨rfl, rfl⟩, p, p', e, e', hmt⟩
        simp only at e e'
        subst e; subst e'
        exact .pure ⟨⟨rfl, rfl⟩, i, p, p', t1, u1, hlt, rfl, rfl, hmt⟩
    refine .bind hloop ?_
    rintro a ρ b ρ' ⟨⟨rfl, rfl⟩, i, p, p', t1, u1, hlt, rfl, rfl, hmt⟩
    simp only
    refine .bind (setup_couple hM F (q := q) (Z := Z) i (subs.set i t1) (subs'.set i u1) 0 (by simp [hl]) ?_) ?_
    · intro j t u hj ht hu
      rw [List.getElem?_set_ne (by omega)] at ht hu
      have hmem := List.mem_of_getElem? ht
      exact ⟨(hp j t u ht hu).1, hsound t hmem, hplaced t hmem, hblind t hmem, hnames t hmem⟩
    · rintro ⟨a1, a2⟩ ρ ⟨b1, b2⟩ ρ' ⟨⟨rfl, rfl⟩, h1, h2, h3, h4, h5⟩
      simp only at h1 h2 h3 h4 h5
      subst h1
      rw [List.length_set] at h2 h3 h5
      rw [if_pos (by omega)] at h5
      exact .pure ⟨⟨rfl, rfl⟩, _, _, rfl, rfl, .or _ _ i a1 b1 p p' a2 (h3.trans h2.symm) (by omega) (by omega)
        (fun j u u' hj hu hu' => h4 j u u' (by omega) hu hu') hmt⟩

/-! ### Precommitting -/

/-- `get_prover` of a statement without disjunctions does not depend on the random stream. -/
theorem getProver_orFree_rng {d : Dict Int} : ∀ (t : Core E), OrFree t → ∀ (w w' : World) (t' : Core E)
    (p? : Option (CoreProver E)),
    (PTree.getProver t d : PM (Option (CoreProver E) × Core E)) w = .ok ((p?, t'), w') →
    ∀ rng, (PTree.getProver t d : PM (Option (CoreProver E) × Core E)) ⟨w.store, rng⟩ = .ok ((p?, t'), ⟨w'.store, rng⟩) := by
  intro t
  induction t using Tree.ind with
  | leaf s =>
    intro _ w w' t' p? h rng
    obtain ⟨x, hx⟩ := get_rep w.store s d
    simp only [PTree.getProver] at h ⊢
    have e1 : (ProverOps.getProver s d : PM (Option (DLRepProver E) × DLRep E)) w = .ok (x, w) := hx w.rng
    have e2 : (ProverOps.getProver s d : PM (Option (DLRepProver E) × DLRep E)) ⟨w.store, rng⟩ = .ok (x, ⟨w.store, rng⟩) := hx rng
    rw [pm_bind_eq e1] at h
    rw [pm_bind_eq e2]
    rw [pm_pure_iff, Prod.mk.injEq] at h ⊢
    exact ⟨h.1, by rw [← h.2]⟩
  | or b subs _ => intro h; cases h
  | and b subs ih =>
    intro hf w w' t' p? h rng
    cases hf with
    | all _ _ hf =>
    simp only [PTree.getProver] at h ⊢
    rw [pm_getStore_bind, pm_setStore_bind] at h ⊢
    by_cases hc : b = true
    · rw [if_pos hc] at h ⊢
      rw [pm_pure_iff, Prod.mk.injEq] at h ⊢
      exact ⟨h.1, by rw [← h.2]⟩
    · rw [if_neg hc] at h ⊢
      obtain ⟨⟨ps, subs'⟩, w1, h1, h⟩ := pm_bind.mp h
      simp only at h
      have key : ∀ (ts ts' : List (Core E)) (ps : List (Option (CoreProver E))) (w w' : World),
          (∀ t ∈ ts, t ∈ subs) → PTree.getProverL ts d w = .ok ((ps, ts'), w') →
          PTree.getProverL ts d ⟨w.store, rng⟩ = .ok ((ps, ts'), ⟨w'.store, rng⟩) := by
        intro ts
        induction ts with
        | nil =>
          intro ts' ps w w' _ h
          simp only [PTree.getProverL, pm_pure_iff, Prod.mk.injEq] at h ⊢
          exact ⟨h.1, by rw [← h.2]⟩
        | cons t ts iht =>
          intro ts' ps w w' hsub h
          simp only [PTree.getProverL] at h ⊢
          obtain ⟨⟨p?, t1⟩, w1, h1, h⟩ := pm_bind.mp h
          obtain ⟨⟨ps', ts1⟩, w2, h2, h⟩ := pm_bind.mp h
          simp only [pm_pure_iff, Prod.mk.injEq] at h
          obtain ⟨⟨rfl, rfl⟩, rfl⟩ := h
          have ht := hsub t (by simp)
          rw [pm_bind_eq (ih t ht (hf t ht) _ _ _ _ h1 rng),
            pm_bind_eq (iht ts1 ps' w1 w2 (fun t ht => hsub t (by simp [ht])) h2)]
          rfl
      have k1 := key subs subs' ps _ w1 (fun t ht => ht) h1
      rw [pm_bind_eq k1]
      simp only
      cases hall : PTree.allSome ps with
      | none => simp only [hall, raise_ne] at h
      | some ps' =>
        simp only [hall, pm_pure_iff, Prod.mk.injEq] at h ⊢
        exact ⟨h.1, by rw [← h.2]⟩

theorem pre_couple {A : Sec → Prop} (hA : ∀ e ∈ d, ¬ A e.1) : ∀ (p : StmtProver E), Primed (LeafFit F q d Z A σ) p →
    Apart (leafFoot F) (leafScope F A) p → ∀ (p' : StmtProver E), Mated (Before F M σ σs d) p p' →
    ∀ (σ' : Store), Same (Scope (leafScope F A) p) σ σ' →
    Couple M (fun (a : Val E × StmtProver E) τ (b : Val E × StmtProver E) τ' => τ' = σs ∧
        Same (fun x => ¬ Foot (leafFoot F) p x) σ' τ ∧ a.1 = b.1 ∧ Mated After a.2 b.2)
      (starting σ' (PTree.precommit p)) (starting σs (pretendPre p')) := by
  intro p
  induction p using PTree.ind with
  | leaf p =>
    intro hp _ p' hm σ' hσ'
    cases hp with
    | leaf _ hp =>
    cases hm with
    | leaf _ p' hm =>
    cases p with
    | dlrep p =>
      cases p' with
      | ext _ => exact hm.elim
      | dlrep p' =>
      exact .ends (a := (.none, .leaf (.dlrep p))) (b := (.none, .leaf (.dlrep p')))
        ⟨rfl, Same.refl _ _, rfl, .leaf _ _ hm⟩ (fun r => rfl) fun r => rfl
    | ext p =>
      cases p' with
      | dlrep _ => exact hm.elim
      | ext p' =>
      obtain ⟨hpub, ⟨n, e, hi⟩, hpl, _, _, hfor⟩ := hm
      obtain ⟨vs, hvs⟩ := id hpl
      rcases public_leaf hpub with ⟨_, _, h, _⟩ | ⟨s, s', h, h', c1, c2, c3, c4⟩
      · cases h
      cases h; cases h'
      have hσ : Same (Own F A p.stmt.spec) σ σ' := fun x hx => hσ' x (.leaf _ x hx)
      have hp' : LeafFit F q d Z A σ' (.ext p) := leafFit_stab F q d Z A hA _ _ _ hp hσ
      refine .reading n e fun y => ?_
      obtain ⟨v, σ'', hrun⟩ := hi y σ' (leaf_reads F q d Z A hA hp hσ)
      obtain ⟨k, t1, cp, hk, hb, hsame, hpre⟩ := precommit_leaf_plain F q d Z A hA p (w := ⟨σ', tape y fun _ => 0⟩) hp'
        (hrun _).1 hpl
      simp only at hk hsame
      obtain ⟨k', hk', e1, e2⟩ := hfor _ _ _ hk
      have hb' := blank_of_shape _ _ e1 e2
      obtain ⟨hof, _⟩ := hvs _ _ _ hk
      have h0 := (hrun fun _ => 0).1
      have hget : ∃ cp t1 w2, Tree.blank t1 = Tree.blank k ∧
          (PTree.getProver k p.secretValues : PM (Option (CoreProver E) × Core E)) ⟨σ'', fun _ => 0⟩ = .ok ((some cp, t1), w2) ∧
          w2.store = σ'' := by
        unfold ExtProver.precommit at hpre
        rw [pm_bind_eq h0, pm_getStore_bind] at hpre
        unfold Ext.fullConstruct at hpre
        simp only at hpre
        rw [hk, bind_ok, pm_liftE_bind] at hpre
        unfold Ext.inner at hpre
        rw [pm_liftE_bind] at hpre
        obtain ⟨⟨cp?, t2⟩, w2, g1, g2⟩ := pm_bind.mp hpre
        simp only [pm_pure_iff, Prod.mk.injEq, ExtProver.mk.injEq, Ext.mk.injEq, Option.some.injEq] at g2
        obtain ⟨⟨_, ⟨_, _, _, rfl, _⟩, _, rfl⟩, rfl⟩ := g2
        exact ⟨_, _, _, hb, g1, rfl⟩
      obtain ⟨cp, t1, w2, hb, hget, rfl⟩ := hget
      have hget := getProver_orFree_rng _ hof _ _ _ _ hget
      refine ⟨(v, .leaf (.ext ⟨⟨p.stmt.spec, p.stmt.simulated, v, some t1, p.stmt.verifier⟩, p.secretValues, some cp⟩)), w2.store,
        (v, .leaf (.ext ⟨⟨p'.stmt.spec, p'.stmt.simulated, v, some k', p'.stmt.verifier⟩, p'.secretValues, p'.constructed⟩)), σs,
        ⟨rfl, fun x hx => hsame x fun hf => hx (.leaf _ x hf), rfl, .leaf _ _ ⟨t1, k', rfl, rfl, hb'.trans hb.symm,
          orFree_blank hof _ hb, c1, rfl⟩⟩, fun r => ⟨?_, ?_⟩⟩
      · simp only [PTree.precommit, ProverOps.precommit, ExtProver.precommit, bind_assoc]
        rw [pm_bind_eq (hrun r).1, pm_getStore_bind]
        simp only [Ext.fullConstruct, hk, bind_ok]
        rw [pm_liftE_bind]
        simp only [Ext.inner]
        rw [pm_liftE_bind, pm_bind_eq (hget r)]
        rfl
      · simp only [pretendPre, Ext.prepareSim, bind_assoc, c4]
        rw [pm_bind_eq (hrun r).2, pm_getStore_bind]
        simp only [Ext.fullConstruct, c2, hk', bind_ok]
        rfl
  | and b ps ih =>
    intro hp ha p' hm σ' hσ'
    cases hp with
    | and _ _ hne hp =>
    cases ha with
    | and _ _ ha hd =>
    cases hm with
    | and _ b' _ ps' l hm =>
    have loop : ∀ (qs qs' : List (StmtProver E)) (off : Nat) (σ' : Store), qs'.length = qs.length →
        (∀ i, ps[off + i]? = qs[i]?) → (∀ i, ps'[off + i]? = qs'[i]?) →
        Same (fun x => ∃ p ∈ qs, Scope (leafScope F A) p x) σ σ' →
        Couple M (fun (a : List (Val E) × List (StmtProver E)) τ (b : List (Val E) × List (StmtProver E)) τ' => τ' = σs ∧
            Same (fun x => ∀ p ∈ qs, ¬ Foot (leafFoot F) p x) σ' τ ∧ a.1 = b.1 ∧ b.2.length = a.2.length ∧
            ∀ (i : Nat) p p', a.2[i]? = some p → b.2[i]? = some p' → Mated After p p')
          (starting σ' (PTree.precommitL qs)) (starting σs (pretendPreL qs')) := by
      intro qs
      induction qs with
      | nil =>
        intro qs' off σ' hl _ _ _
        cases qs' with
        | cons _ _ => simp at hl
        | nil => exact .pure ⟨rfl, Same.refl _ _, rfl, rfl, by simp⟩
      | cons r qs ihl =>
        intro qs' off σ' hl ho ho' hσ'
        cases qs' with
        | nil => simp at hl
        | cons r' qs' =>
        have h0 : ps[off]? = some r := by simpa using ho 0
        have h0' : ps'[off]? = some r' := by simpa using ho' 0
        have hrm : r ∈ ps := List.mem_of_getElem? h0
        have hq : ∀ u ∈ qs, ∀ x, Foot (leafFoot F) r x → ¬ Scope (leafScope F A) u x := by
          intro u hu
          obtain ⟨j, hj⟩ := List.getElem?_of_mem hu
          have hj' : ps[off + (j + 1)]? = some u := by rw [ho (j + 1)]; simpa using hj
          exact fun x => hd off (off + (j + 1)) r u x (by omega) h0 hj'
        simp only [PTree.precommitL, pretendPreL]
        refine .bind (ih r hrm (hp r hrm) (ha r hrm) r' (hm off r r' h0 h0') σ' fun x hx => hσ' x ⟨r, by simp, hx⟩) ?_
        rintro ⟨v, r1⟩ τ ⟨v', r1'⟩ τ' ⟨rfl, i1, i2, i3⟩
        simp only at i2 i3
        subst i2
        refine .bind (ihl qs' (off + 1) τ (by simpa using hl)
          (fun i => by have := ho (i + 1); rw [show off + 1 + i = off + (i + 1) by omega, this]; simp)
          (fun i => by have := ho' (i + 1); rw [show off + 1 + i = off + (i + 1) by omega, this]; simp) ?_) ?_
        · rintro x ⟨u, hu, hx⟩
          rw [i1 x fun hf => hq u hu x hf hx]
          exact hσ' x ⟨u, by simp [hu], hx⟩
        · rintro ⟨vs, rs⟩ τ2 ⟨vs', rs'⟩ τ' ⟨rfl, j1, j2, j3, j4⟩
          simp only at j2 j3 j4
          subst j2
          refine .pure ⟨rfl, fun x hx => ?_, rfl, by simp [j3], fun i a b ha hb => ?_⟩
          · rw [j1 x fun u hu => hx u (by simp [hu])]
            exact i1 x (hx r (by simp))
          · cases i with
            | zero =>
              simp only [List.getElem?_cons_zero, Option.some.injEq] at ha hb
              subst ha; subst hb
              exact i3
            | succ i => exact j4 i a b ha hb
    simp only [PTree.precommit, pretendPre]
    refine .bind (loop ps ps' 0 σ' l (fun i => by simp) (fun i => by simp) ?_) ?_
    · rintro x ⟨p, hp, hx⟩
      exact hσ' x (.and b ps p x hp hx)
    · rintro ⟨vs, rs⟩ τ ⟨vs', rs'⟩ τ' ⟨rfl, j1, j2, j3, j4⟩
      simp only at j2 j3 j4
      subst j2
      refine .pure ⟨rfl, fun x hx => j1 x fun p hp hf => hx (.and b ps p x hp hf), ?_, .and _ _ _ _ j3 j4⟩
      simp only [PTree.andPrecommitment, allNone_iff]
  | or b i us p sims ih =>
    intro hp ha p' hm σ' hσ'
    cases hp with
    | or _ _ _ _ _ _ _ _ hp =>
    cases ha with
    | or _ _ _ _ _ ha hd =>
    cases hm with
    | or _ b' _ _ us' _ p' _ l hi ls hc hm =>
    have slots : ∀ v : Val E, PTree.orSlots us.length i v (sims.map Sim.precommitment) =
        .ok ((sims.map Sim.precommitment).insertIdx i v) := by
      intro v
      have := orSlots_eq i v (sims.map Sim.precommitment) (by simp; omega)
      simpa [ls] using this
    simp only [PTree.precommit, pretendPre]
    refine .bind (ih hp ha p' hm σ' fun x hx => hσ' x (.or b i us p sims x hx)) ?_
    rintro ⟨v, r1⟩ τ ⟨v', r1'⟩ τ' ⟨rfl, i1, i2, i3⟩
    simp only at i2 i3
    subst i2
    refine .ends (τ := τ) (a := (_, .or b i us r1 sims)) (b := (_, .or b' i us' r1' sims)) ⟨rfl,
      fun x hx => i1 x fun hf => hx (.or b i us p sims x hf), rfl, .or _ _ _ _ _ _ _ _ l hi ls hc i3⟩ (fun r => ?_) fun r => rfl
    simp only
    rw [slots, pm_liftE_bind]
    rfl

end

end Zksk.Clause
