import Verif.Lemmas.Own
import Verif.Lemmas.HideRun
import Verif.Lemmas.PowerTwoRun
import Verif.Lemmas.BBSRun

/-! The statements of the library construct the same thing from secret objects of one's own. -/

set_option linter.unusedSectionVars false

namespace Zksk

open Spec

variable {E : Type} [AddCommGroup E] [DecidableEq E]

theorem own_mkDLRep (ρ : Sec → Sec) (σ σ' : Store) (lhs : Pt E) {vars' vars : List Sec} (hv : vars' = vars.map ρ)
    (bases : List (Pt E)) (b b' : Bool) :
    SameOutcome (RepOwn ρ) (mkDLRep σ lhs vars' bases b) (mkDLRep σ' lhs vars bases b') := by
  subst hv
  unfold mkDLRep
  cases bases with
  | nil => rfl
  | cons g gs =>
    simp only
    split
    · rfl
    · exact ⟨rfl, rfl, rfl⟩

theorem own_mkAnd {R : DLRep E → DLRep E → Prop} {ts us : List (Core E)} (h : List.Forall₂ (Alike R) ts us) :
    SameOutcome (Alike R) (mkAnd ts) (mkAnd us) := by
  obtain ⟨e1, e2⟩ := get_of_forall₂ h
  unfold mkAnd
  rw [e1]
  split
  · rfl
  · exact .all _ _ _ _ e1 e2

namespace NotEqual

theorem ownObject {ρ : Sec → Sec} {f : String → String} {s s' : NotEqual E} (σ : Store)
    (h0 : s'.lhs0 = s.lhs0) (h1 : s'.lhs1 = s.lhs1) (hg : s'.g = s.g) (hh : s'.h = s.h) (hbind : s'.bind = s.bind)
    (hx : s'.x = ρ s.x) (hα : s'.alpha = ρ s.alpha) (hβ : s'.beta = ρ s.beta) :
    LeafOwn ρ f σ (.ext ⟨s'.spec, false, .none, none, none⟩) (.ext ⟨s.spec, false, .none, none, none⟩) := by
  refine ⟨rfl, ?_, fun v => ?_, rfl, trivial⟩
  · show s'.validate = s.validate
    funext v
    unfold validate
    rw [hg]
  · show SameOutcome _ (s'.construct σ v) (s.construct (seenThrough ρ f σ) v)
    unfold construct
    rw [h0, h1, hg, hh, hbind]
    refine sameOutcome_bind (sameOutcome_refl v.asPt) fun c c' e => ?_
    subst e
    refine sameOutcome_bind (own_mkDLRep ρ σ _ _ (by simp [hα, hβ]) _ _ _) fun p1 p1' e1 => ?_
    refine sameOutcome_bind (own_mkDLRep ρ σ _ _ (by simp [hα, hβ]) _ _ _) fun p2 p2' e2 => ?_
    split
    · refine sameOutcome_bind (own_mkDLRep ρ σ _ _ (by simp [hx]) _ _ _) fun p3 p3' e3 => ?_
      exact own_mkAnd (.cons (.leaf _ _ e1) (.cons (.leaf _ _ e2) (.cons (.leaf _ _ e3) .nil)))
    · exact own_mkAnd (.cons (.leaf _ _ e1) (.cons (.leaf _ _ e2) .nil))

end NotEqual

namespace PowerTwo

theorem own_bit {ρ : Sec → Sec} {f : String → String} {s s' : PowerTwo E} (σ : Store) (hg : s'.g = s.g) (hh : s'.h = s.h) (v : Val E) (i : Nat)
    (x : Sec) : SameOutcome (Alike (RepOwn ρ)) (s'.bitProof σ v i (ρ x) none)
      (s.bitProof (seenThrough ρ f σ) v i x none) := by
  unfold bitProof
  rw [hg, hh]
  refine sameOutcome_bind (sameOutcome_refl _) fun l l' e => ?_
  subst e
  refine sameOutcome_bind (sameOutcome_refl _) fun l l' e => ?_
  subst e
  refine sameOutcome_bind (sameOutcome_refl _) fun c c' e => ?_
  subst e
  refine sameOutcome_bind (own_mkDLRep ρ σ _ _ (by simp) _ _ _) fun p1 p1' e1 => ?_
  refine sameOutcome_bind (sameOutcome_refl _) fun c c' e => ?_
  subst e
  refine sameOutcome_bind (own_mkDLRep ρ σ _ _ (by simp) _ _ _) fun p2 p2' e2 => ?_
  obtain ⟨f1, f2⟩ := get_of_forall₂ (Q := Alike (RepOwn ρ)) (.cons (.leaf _ _ e1) (.cons (.leaf _ _ e2) .nil))
  exact .any _ _ _ _ f1 f2

theorem ownObject {ρ : Sec → Sec} {f : String → String} {s s' : PowerTwo E} (σ : Store) (hcom : s'.com = s.com) (hg : s'.g = s.g) (hh : s'.h = s.h)
    (hr : s'.rands = s.rands.map ρ) (hv' : s'.isProver = false) (hv : s.isProver = false) :
    LeafOwn ρ f σ (.ext ⟨s'.spec, false, .none, none, none⟩) (.ext ⟨s.spec, false, .none, none, none⟩) := by
  refine ⟨rfl, ?_, fun v => ?_, rfl, trivial⟩
  · show s'.validate = s.validate
    funext v
    unfold validate
    rw [hcom, hg, hh]
  · show SameOutcome _ (s'.construct σ v) (s.construct (seenThrough ρ f σ) v)
    unfold construct proverBits
    rw [hr, hv, hv']
    simp only [Bool.false_eq_true, if_false, bind_ok]
    have : ∀ (l : List Sec) i, SameOutcome (List.Forall₂ (Alike (RepOwn ρ))) (s'.bitProofs σ v i (l.map ρ) none)
        (s.bitProofs (seenThrough ρ f σ) v i l none) := by
      intro l
      induction l with
      | nil => intro i; exact .nil
      | cons x l ih =>
        intro i
        simp only [List.map_cons, bitProofs]
        refine sameOutcome_bind (own_bit σ hg hh v i x) fun p p' e => sameOutcome_bind (ih (i + 1)) fun ps ps' e' => ?_
        exact .cons e e'
    exact sameOutcome_bind (this _ _) fun ts us h => own_mkAnd h

end PowerTwo

namespace BBS

theorem own_at {ρ : Sec → Sec} (l : List Sec) (i : Nat) :
    SameOutcome (fun x y => x = ρ y) (listAt (l.map ρ) i) (listAt l i) := by
  unfold listAt
  rw [List.getElem?_map]
  cases l[i]? <;> simp [SameOutcome]

theorem own_repOf (ρ : Sec → Sec) (σ σ' : Store) (lhs : Pt E) {vars' vars : List Sec} (hv : vars' = vars.map ρ)
    (bases : List (Pt E)) : SameOutcome (RepOwn ρ) (repOf σ lhs vars' bases) (repOf σ' lhs vars bases) := by
  unfold repOf
  rw [hv, List.length_map]
  split
  · rfl
  · exact own_mkDLRep ρ σ σ' lhs rfl bases false false

theorem ownObject {ρ : Sec → Sec} {f : String → String} {s s' : BBS E} (σ : Store) (gen gen' : E) (hP : s'.P = s.P) (hpk : s'.pk = s.pk)
    (hvars : s'.vars = s.vars.map ρ) (h1 : s'.r1 = ρ s.r1) (h2 : s'.r2 = ρ s.r2) (hd1 : s'.delta1 = ρ s.delta1)
    (hd2 : s'.delta2 = ρ s.delta2) :
    LeafOwn ρ f σ (.ext ⟨s'.spec gen', false, .none, none, none⟩) (.ext ⟨s.spec gen, false, .none, none, none⟩) := by
  refine ⟨rfl, rfl, fun v => ?_, rfl, trivial⟩
  show SameOutcome _ (s'.construct σ v) (s.construct (seenThrough ρ f σ) v)
  unfold construct bases
  rw [hP, hpk, hvars, h1, h2, hd1, hd2, List.length_map]
  refine sameOutcome_bind (sameOutcome_refl _) fun x x' e => ?_; subst e
  refine sameOutcome_bind (sameOutcome_refl _) fun a1 x' e => ?_; subst e
  refine sameOutcome_bind (sameOutcome_refl _) fun x x' e => ?_; subst e
  refine sameOutcome_bind (sameOutcome_refl _) fun a2 x' e => ?_; subst e
  refine sameOutcome_bind (sameOutcome_refl _) fun g0 x' e => ?_; subst e
  refine sameOutcome_bind (sameOutcome_refl _) fun g1 x' e => ?_; subst e
  refine sameOutcome_bind (sameOutcome_refl _) fun g2 x' e => ?_; subst e
  refine sameOutcome_bind (own_mkDLRep ρ σ _ _ (by simp) _ _ _) fun p1 p1' e1 => ?_
  refine sameOutcome_bind (own_at _ _) fun x x' e => ?_; subst e
  refine sameOutcome_bind (own_mkDLRep ρ σ _ _ (by simp) _ _ _) fun p2 p2' e2 => ?_
  refine sameOutcome_bind (sameOutcome_refl _) fun aw x' e => ?_; subst e
  refine sameOutcome_bind (sameOutcome_refl _) fun p0 x' e => ?_; subst e
  refine sameOutcome_bind (sameOutcome_refl _) fun lhs x' e => ?_; subst e
  refine sameOutcome_bind (sameOutcome_refl _) fun ah x' e => ?_; subst e
  refine sameOutcome_bind (sameOutcome_refl _) fun gw x' e => ?_; subst e
  refine sameOutcome_bind (sameOutcome_refl _) fun q2 x' e => ?_; subst e
  refine sameOutcome_bind (own_repOf ρ σ _ _ (by simp [List.map_take, List.map_drop]) _) fun p3 p3' e3 => ?_
  exact own_mkAnd (.cons (.leaf _ _ e1) (.cons (.leaf _ _ e2) (.cons (.leaf _ _ e3) .nil)))

end BBS

end Zksk
