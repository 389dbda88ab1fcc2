import Verif.Lemmas.StmtComplete

/-! From the specification of honest runs to the lemmas about them. -/

set_option linter.unusedSectionVars false

namespace Zksk

open Spec

variable {E : Type} [AddCommGroup E] [DecidableEq E]

mutual
theorem blank_of_shape : ∀ (t u : Core E), shape t = shape u → secrets t = secrets u →
    Tree.blank t = Tree.blank u
  | .leaf s, u, h, h' => by
    cases u with
    | leaf s' =>
      simp only [shape, Skel.rep.injEq] at h
      simp only [secrets] at h'
      cases s; cases s'
      simp only at h h'
      obtain ⟨rfl, rfl, _⟩ := h
      subst h'
      rfl
    | and _ _ => simp [shape] at h
    | or _ _ => simp [shape] at h
  | .and _ ts, u, h, h' => by
    cases u with
    | and _ us =>
      simp only [shape, Skel.all.injEq] at h
      simp only [Tree.blank, blankL_of_shape ts us h h']
    | leaf _ => simp [shape] at h
    | or _ _ => simp [shape] at h
  | .or _ ts, u, h, h' => by
    cases u with
    | or _ us =>
      simp only [shape, Skel.any.injEq] at h
      simp only [Tree.blank, blankL_of_shape ts us h h']
    | leaf _ => simp [shape] at h
    | and _ _ => simp [shape] at h
theorem blankL_of_shape : ∀ (ts us : List (Core E)), shapeL ts = shapeL us → secretsL ts = secretsL us →
    Tree.blankL ts = Tree.blankL us
  | [], us, h, _ => by
    cases us with
    | nil => rfl
    | cons a as => simp [shapeL] at h
  | t :: ts, us, h, h' => by
    cases us with
    | nil => simp [shapeL] at h
    | cons u us =>
      simp only [shapeL, List.cons.injEq] at h
      simp only [secretsL] at h'
      obtain ⟨h1, h2⟩ := List.append_inj h' (coreVars_length t u h.1)
      simp only [Tree.blankL, blank_of_shape t u h.1 h1, blankL_of_shape ts us h.2 h2]
end

theorem judgeL_of {σ : Store} : ∀ (ts us : List (Stmt E)), ts.length = us.length →
    (∀ (i : Nat) (t u : Stmt E), ts[i]? = some t → us[i]? = some u → Tree.Judge σ t u) → Tree.JudgeL σ ts us
  | [], us, h, _ => by
    cases us with
    | nil => simp [Tree.JudgeL]
    | cons => simp at h
  | t :: ts, us, h, hj => by
    cases us with
    | nil => simp at h
    | cons u us =>
      simp only [List.length_cons, Nat.add_right_cancel_iff] at h
      exact ⟨hj 0 t u rfl rfl, judgeL_of ts us h fun i a b ha hb => hj (i + 1) a b ha hb⟩

theorem judge_of {σv : Store} {tv t : Stmt E} (h : VerifierFor σv tv t) : Tree.Judge σv tv t := by
  induction h with
  | leaf a b h =>
    cases a with
    | dlrep a =>
      cases b with
      | dlrep b =>
        obtain ⟨h1, h2, h3⟩ := h
        show a.norm = b.norm
        cases a; cases b
        simp only at h1 h2 h3
        subst h1; subst h2; subst h3
        rfl
      | ext b => exact h.elim
    | ext a =>
      cases b with
      | dlrep b => exact h.elim
      | ext b =>
        obtain ⟨h1, h2, h3⟩ := h
        refine ⟨h1, h2, fun σ v k hk => ?_⟩
        obtain ⟨k', g1, g2, g3⟩ := h3 σ v k hk
        exact ⟨k', g1, blank_of_shape _ _ g2 g3⟩
  | all b b' ts us hlen _ ih => simp only [Tree.Judge]; exact judgeL_of ts us hlen ih
  | any b b' ts us hlen _ ih => simp only [Tree.Judge]; exact judgeL_of ts us hlen ih

theorem good_of_every {Q R : Leaf E → Prop} {t : Stmt E} (h : EveryLeaf Q t) (hQ : ∀ l, Q l → R l) :
    Good R t := by
  induction h with
  | leaf l h => exact .leaf l (hQ l h)
  | all b subs hne _ ih => exact .and b subs hne ih
  | any b subs hne _ ih => exact .or b subs hne ih

theorem every_and {Q R : Leaf E → Prop} {t : Stmt E} (h : EveryLeaf Q t) (h' : EveryLeaf R t) :
    EveryLeaf (fun l => Q l ∧ R l) t := by
  induction h with
  | leaf l h => cases h' with | leaf _ h' => exact .leaf l ⟨h, h'⟩
  | all b subs hne _ ih =>
    cases h' with | all _ _ _ h' => exact .all b subs hne fun t ht => ih t ht (h' t ht)
  | any b subs hne _ ih =>
    cases h' with | any _ _ _ h' => exact .any b subs hne fun t ht => ih t ht (h' t ht)

theorem every_writes (F : Profile E) {Q : Leaf E → Prop} {t : Stmt E} (h : EveryLeaf Q t) :
    EveryLeaf (fun l => ∀ x, leafWrites F l x → AtLeaf (leafWrites F) t x) t := by
  have key : ∀ (t : Stmt E) (S : Sec → Prop), EveryLeaf Q t → (∀ x, AtLeaf (leafWrites F) t x → S x) →
      EveryLeaf (fun l => ∀ x, leafWrites F l x → S x) t := by
    intro t S h
    induction h with
    | leaf l h => intro hS; exact .leaf l fun x hx => hS x (.leaf l x hx)
    | all b subs hne _ ih => intro hS; exact .all b subs hne fun t ht => ih t ht fun x hx => hS x (.all b subs t x ht hx)
    | any b subs hne _ ih => intro hS; exact .any b subs hne fun t ht => ih t ht fun x hx => hS x (.any b subs t x ht hx)
  exact key t _ h fun x hx => hx

theorem proved_imp {Q R : Leaf E → Prop} {t : Stmt E} (h : ProvedLeaf Q t) (hQ : ∀ l, Q l → R l) :
    ProvedLeaf R t := by
  induction h with
  | leaf l h => exact .leaf l (hQ l h)
  | all subs _ ih => exact .all subs ih
  | any subs hex _ ih => exact .any subs hex ih

theorem every_of_hasLeaf {Q R : Leaf E → Prop} {t : Stmt E} (h : EveryLeaf Q t) (hR : ∀ l, HasLeaf l t → R l) :
    EveryLeaf R t := by
  induction h with
  | leaf l h => exact .leaf l (hR l .leaf)
  | all b subs hne _ ih => exact .all b subs hne fun t ht => ih t ht fun l hl => hR l (.all b subs t ht hl)
  | any b subs hne _ ih => exact .any b subs hne fun t ht => ih t ht fun l hl => hR l (.any b subs t ht hl)

theorem good_of_ready {F : Profile E} {q : Nat} {σ : Store} {d : Dict Int} {Z : ExtSpec E → Val E → Prop}
    {t : Stmt E} (h : Spec.Ready F q σ d Z t) :
    GoodT (LeafOuter F q (AtLeaf (leafWrites F) t)) (LeafGood F q Z (AtLeaf (leafWrites F) t) σ) t := by
  have hall := every_and h.sound (every_and h.own (every_writes F h.sound))
  have hpl := h.placed
  generalize hA : AtLeaf (leafWrites F) t = A at hall ⊢
  clear hA h
  have hdl : ∀ s : DLRep E, LeafSound F q σ Z (.dlrep s) → (∀ x, leafReads F (.dlrep s) x → A x →
      leafWrites F (.dlrep s) x) → InRep (fun x => ¬ A x) s ∧ OneOrder q (.leaf s) := by
    intro s h1 h2
    obtain ⟨g1, g2, g3⟩ := h1
    have h2' : ∀ x, (x ∈ s.secretVars ∨ x ∈ s.secretValues.map Prod.fst) → ¬ A x :=
      fun x hx ha => (h2 x hx ha).elim
    exact ⟨⟨⟨g1, g2⟩, fun x hx => h2' x (.inl hx), fun e he => h2' e.1 (.inr (List.mem_map_of_mem he))⟩, g3⟩
  induction hpl with
  | leaf l =>
    cases hall with
    | leaf _ h =>
    obtain ⟨h1, h2, h3⟩ := h
    refine .leaf l ?_
    cases l with
    | dlrep s => exact hdl s h1 h2
    | ext s => exact ⟨h1.2, h2, h3⟩
  | all b subs _ ih =>
    cases hall with
    | all _ _ hne hall => exact .and b subs hne fun t ht => ih t ht (hall t ht)
  | any b subs hin =>
    refine .or b subs ?_
    refine good_of_every (every_and hall (every_of_hasLeaf (R := fun l => ¬ leafOutside F l) hall fun l hl => ?_)) ?_
    · cases l with
      | dlrep s => exact fun h => h
      | ext e => exact hin e hl
    · rintro l ⟨⟨h1, h2, h3⟩, h4⟩
      cases l with
      | dlrep s => exact hdl s h1 h2
      | ext s => exact ⟨h1.1.resolve_left h4, h1.2, h2, h3, h4⟩

/-- Nothing is to stay outside of disjunctions. -/
theorem placed_of {F : Profile E} (hF : ∀ sp, ¬ F.outside sp) (t : Stmt E) : Placed F t := by
  induction t using Tree.ind with
  | leaf l => exact .leaf l
  | and b subs ih => exact .all b subs ih
  | or b subs _ => exact .any b subs fun e _ => hF e.spec

theorem sat_of_ready {F : Profile E} {q : Nat} {σ : Store} {d : Dict Int} {Z : ExtSpec E → Val E → Prop}
    {t : Stmt E} (h : Spec.Ready F q σ d Z t) : ProvedLeaf (LeafSat F q d Z σ) t := by
  refine proved_imp h.holds ?_
  intro l hl
  cases l with
  | dlrep s =>
    cases hl with
    | rep _ hv h => exact ⟨hv, h⟩
  | ext s => exact hl

theorem fullValidateL_of : ∀ (ts : List (Stmt E)), (∀ t ∈ ts, Tree.fullValidate t = .ok ()) →
    Tree.fullValidateL ts = .ok ()
  | [], _ => rfl
  | t :: ts, h => by
    simp only [Tree.fullValidateL, h t (by simp), bind_ok]
    exact fullValidateL_of ts fun t ht => h t (by simp [ht])

theorem fullValidate_of_every {t : Stmt E} (h : EveryLeaf LeafValid t) : Tree.fullValidate t = .ok () := by
  induction h with
  | leaf l h =>
    cases l with
    | dlrep s => rfl
    | ext s => exact h
  | all b subs hne _ ih => simp only [Tree.fullValidate]; exact fullValidateL_of subs ih
  | any b subs hne _ ih => simp only [Tree.fullValidate]; exact fullValidateL_of subs ih

theorem validL_of : ∀ (ts : List (Stmt E)), Tree.fullValidateL ts = .ok () →
    ∀ t ∈ ts, Tree.fullValidate t = .ok ()
  | [], _, t, ht => by simp at ht
  | a :: ts, h, t, ht => by
    simp only [Tree.fullValidateL] at h
    obtain ⟨_, h1, h2⟩ := bind_ok_iff.mp h
    rcases List.mem_cons.mp ht with rfl | ht
    · exact h1
    · exact validL_of ts h2 t ht

theorem made_of_built {F : Profile E} {q : Nat} {Z : ExtSpec E → Val E → Prop} {t : Stmt E}
    (h : Good (LeafBuilt F q Z) t) : EveryLeaf (LeafMade Z) t := by
  induction h with
  | leaf l h =>
    refine .leaf l ?_
    cases l with
    | dlrep s => trivial
    | ext s =>
      obtain ⟨_, _, _, _, _, _, _, _, _, _, hz⟩ := h
      exact hz
  | and b subs hne _ ih => exact .all b subs hne ih
  | or b subs hne _ ih => exact .any b subs hne ih

theorem valid_of_made {Z : ExtSpec E → Val E → Prop} (hZ : ∀ sp v, Z sp v → sp.validate v = .ok ()) {t : Stmt E}
    (h : EveryLeaf (LeafMade Z) t) : EveryLeaf LeafValid t := by
  induction h with
  | leaf l h =>
    refine .leaf l ?_
    cases l with
    | dlrep s => trivial
    | ext s => exact hZ _ _ h
  | all b subs hne _ ih => exact .all b subs hne ih
  | any b subs hne _ ih => exact .any b subs hne ih

theorem every_of_built {F : Profile E} {q : Nat} {Z : ExtSpec E → Val E → Prop}
    (hZ : ∀ sp v, Z sp v → sp.validate v = .ok ()) {t : Stmt E} (h : Good (LeafBuilt F q Z) t) :
    EveryLeaf LeafValid t := valid_of_made hZ (made_of_built h)

/-- Names of the secrets of a statement that was built. -/
theorem sees_built {F : Profile E} {q : Nat} {Z : ExtSpec E → Val E → Prop} {t t' : Stmt E} {σ σv : Store}
    (hb : Good (LeafBuilt F q Z) t') (he : Tree.blank t' = Tree.blank t) (h : Named F σ.name t)
    (hv : Named F σv.name t) (k : Core E) (hk : Tree.core t' = some k) : Sees σ σv (secrets k) := by
  obtain ⟨k', h1, _, _, h4⟩ := built_core F q Z t' hb
  rw [hk] at h1; cases h1
  have h5 : ∀ x ∈ secrets k, AtLeaf (leafOccurs F) t x := fun x hx =>
    atLeaf_blank (leafOccurs_blank F) (h4 x hx) t he.symm
  exact sees_apart (fun x hx y hy e => h x y (h5 x hx) (h5 y hy) e)
    fun x hx y hy e => hv x y (h5 x hx) (h5 y hy) e

end Zksk
