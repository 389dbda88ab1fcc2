import Verif.Model.Objects
import Verif.Lemmas.Progress2

/-! Statement objects: what changes when provers are made, and how the objects read afterwards. -/

set_option linter.unusedSectionVars false

namespace Zksk.Share

open Spec

variable {E : Type} [AddCommGroup E] [DecidableEq E]

/-! ### Lists of readings -/

theorem allSome_iff {α : Type} {l : List (Option α)} {r : List α} : PTree.allSome l = some r ↔ l = r.map some := by
  refine ⟨allSome_eq, ?_⟩
  rintro rfl
  induction r with
  | nil => rfl
  | cons a r ih => simp [PTree.allSome, ih]

theorem reads_get {f : Nat → Option (Core E)} {rs : List Nat} {ts : List (Core E)}
    (h : PTree.allSome (rs.map f) = some ts) {i r : Nat} (hi : rs[i]? = some r) :
    ∃ t, ts[i]? = some t ∧ f r = some t := by
  have := congrArg (·[i]?) (allSome_iff.mp h)
  simp only [List.getElem?_map, hi, Option.map_some] at this
  cases ht : ts[i]? with
  | none => simp [ht] at this
  | some t => exact ⟨t, rfl, by simpa [ht] using this⟩

theorem reads_get' {f : Nat → Option (Core E)} {rs : List Nat} {ts : List (Core E)}
    (h : PTree.allSome (rs.map f) = some ts) {i : Nat} {t : Core E} (hi : ts[i]? = some t) :
    ∃ r, rs[i]? = some r ∧ f r = some t := by
  have := congrArg (·[i]?) (allSome_iff.mp h)
  simp only [List.getElem?_map, hi, Option.map_some] at this
  cases hr : rs[i]? with
  | none => simp [hr] at this
  | some r => exact ⟨r, rfl, by simpa [hr] using this⟩

theorem reads_length {f : Nat → Option (Core E)} {rs : List Nat} {ts : List (Core E)}
    (h : PTree.allSome (rs.map f) = some ts) : ts.length = rs.length := by
  have := congrArg List.length (allSome_iff.mp h)
  simpa using this.symm

/-- Readings one by one. -/
theorem reads_of {f : Nat → Option (Core E)} : ∀ {rs : List Nat} {Q : Nat → Core E → Prop},
    (∀ i r, rs[i]? = some r → ∃ t, f r = some t ∧ Q i t) →
    ∃ ts, PTree.allSome (rs.map f) = some ts ∧ ts.length = rs.length ∧ ∀ i t, ts[i]? = some t → Q i t
  | [], Q, _ => ⟨[], rfl, rfl, by simp⟩
  | r :: rs, Q, h => by
    obtain ⟨t, h1, h2⟩ := h 0 r rfl
    obtain ⟨ts, h3, h4, h5⟩ := reads_of (f := f) (rs := rs) (Q := fun i => Q (i + 1)) fun i r hi => h (i + 1) r (by simpa using hi)
    refine ⟨t :: ts, ?_, by simp [h4], ?_⟩
    · rw [allSome_iff] at h3 ⊢
      simp [h1, h3]
    · intro i u hu
      cases i with
      | zero => simp only [List.getElem?_cons_zero, Option.some.injEq] at hu; exact hu ▸ h2
      | succ i => exact h5 i u (by simpa using hu)

/-- A larger bound does not change a reading. -/
theorem read_mono (h : Objects E) : ∀ (n m r : Nat) (t : Core E), n ≤ m → h.read n r = some t → h.read m r = some t
  | 0, _, _, _, _, hr => by simp [Objects.read] at hr
  | n + 1, 0, _, _, hm, _ => by omega
  | n + 1, m + 1, r, t, hm, hr => by
    have hrec : ∀ (rs : List Nat) (ts : List (Core E)), PTree.allSome (rs.map (h.read n)) = some ts → PTree.allSome (rs.map (h.read m)) = some ts := by
      intro rs ts hts
      rw [allSome_iff]
      refine List.ext_getElem? fun i => ?_
      simp only [List.getElem?_map]
      cases hi : rs[i]? with
      | none =>
        have := reads_length hts
        rw [List.getElem?_eq_none (by rw [this]; exact List.getElem?_eq_none_iff.mp hi)]
        rfl
      | some r =>
        obtain ⟨t, h1, h2⟩ := reads_get hts hi
        simp [h1, read_mono h n m r t (by omega) h2]
    simp only [Objects.read] at hr ⊢
    cases ho : h.objs[r]? with
    | none => simp [ho] at hr
    | some o =>
      cases o with
      | rep lhs bases vars v b => simpa [ho] using hr
      | all l b =>
        simp only [ho] at hr ⊢
        cases hl : h.lists[l]? with
        | none => simp [hl] at hr
        | some rs =>
          simp only [hl, Option.bind_some, Option.map_eq_some_iff] at hr ⊢
          obtain ⟨ts, h1, h2⟩ := hr
          exact ⟨ts, hrec rs ts h1, h2⟩
      | any l b =>
        simp only [ho] at hr ⊢
        cases hl : h.lists[l]? with
        | none => simp [hl] at hr
        | some rs =>
          simp only [hl, Option.bind_some, Option.map_eq_some_iff] at hr ⊢
          obtain ⟨ts, h1, h2⟩ := hr
          exact ⟨ts, hrec rs ts h1, h2⟩

/-! ### What may change -/

/-- Only marks of representations changed, of those whose secrets are as `M` says, and contents of
dictionaries. -/
structure Frame (M : List Sec → Prop) (h h' : Objects E) : Prop where
  lists : h'.lists = h.lists
  dicts : h'.dicts.length = h.dicts.length
  objs : ∀ r : Nat, h'.objs[r]? = h.objs[r]? ∨ ∃ lhs bases vars v b, h.objs[r]? = some (Obj.rep lhs bases vars v b) ∧
    h'.objs[r]? = some (Obj.rep lhs bases vars v true) ∧ M vars

/-- Dictionaries are as before, or the values of `d` were written into them. -/
def Filled (σ : Store) (d : Dict Int) (h h' : Objects E) : Prop :=
  ∀ (v : Nat) vals vals', h.dicts[v]? = some vals → h'.dicts[v]? = some vals' →
    vals' = vals ∨ ∀ x, Dict.get? σ vals' x = (Dict.get? σ d x).or (Dict.get? σ vals x)

theorem Frame.refl (M : List Sec → Prop) (h : Objects E) : Frame M h h := ⟨rfl, rfl, fun _ => .inl rfl⟩

theorem Frame.mono {M M' : List Sec → Prop} {h h' : Objects E} (hM : ∀ l, M l → M' l) (hf : Frame M h h') :
    Frame M' h h' := by
  refine ⟨hf.lists, hf.dicts, fun r => ?_⟩
  rcases hf.objs r with h1 | ⟨a, b, c, v, s, h1, h2, h3⟩
  · exact .inl h1
  · exact .inr ⟨a, b, c, v, s, h1, h2, hM _ h3⟩

theorem Frame.trans {M : List Sec → Prop} {h h' h'' : Objects E} (h1 : Frame M h h') (h2 : Frame M h' h'') :
    Frame M h h'' := by
  refine ⟨h2.lists.trans h1.lists, h2.dicts.trans h1.dicts, fun r => ?_⟩
  rcases h1.objs r with e1 | ⟨a, b, c, v, s, e1, e2, e3⟩
  · rcases h2.objs r with f1 | ⟨a, b, c, v, s, f1, f2, f3⟩
    · exact .inl (f1.trans e1)
    · exact .inr ⟨a, b, c, v, s, e1 ▸ f1, f2, f3⟩
  · rcases h2.objs r with f1 | ⟨a', b', c', v', s', f1, f2, f3⟩
    · exact .inr ⟨a, b, c, v, s, e1, f1.trans e2, e3⟩
    · rw [e2] at f1
      injection f1 with f1
      injection f1 with q1 q2 q3 q4 q5
      subst q1; subst q2; subst q3; subst q4
      exact .inr ⟨_, _, _, _, s, e1, f2, f3⟩

theorem Frame.length {M : List Sec → Prop} {h h' : Objects E} (hf : Frame M h h') :
    h'.objs.length = h.objs.length := by
  have key : ∀ r : Nat, h'.objs[r]? = none ↔ h.objs[r]? = none := by
    intro r
    rcases hf.objs r with e1 | ⟨a, b, c, v, s, e1, e2, e3⟩
    · rw [e1]
    · simp [e1, e2]
  simp only [List.getElem?_eq_none_iff] at key
  have h1 := (key h.objs.length).mpr (le_refl _)
  have h2 := (key h'.objs.length).mp (le_refl _)
  omega

theorem Frame.dict {M : List Sec → Prop} {h h' : Objects E} (hf : Frame M h h') {v : Nat} {vals : Dict Int}
    (hv : h.dicts[v]? = some vals) : ∃ vals', h'.dicts[v]? = some vals' := by
  have := (List.getElem?_eq_some_iff.mp hv).1
  exact ⟨_, List.getElem?_eq_getElem (by rw [hf.dicts]; exact this)⟩

theorem Filled.refl (σ : Store) (d : Dict Int) (h : Objects E) : Filled σ d h h := by
  intro v vals vals' h1 h2
  rw [h1] at h2
  exact .inl (Option.some.inj h2).symm

theorem Filled.trans {M : List Sec → Prop} {σ : Store} {d : Dict Int} {h h' h'' : Objects E} (hf : Frame M h h')
    (h1 : Filled σ d h h') (h2 : Filled σ d h' h'') : Filled σ d h h'' := by
  intro v vals vals'' e e''
  obtain ⟨vals', e'⟩ := hf.dict e
  rcases h1 v _ _ e e' with rfl | g1
  · exact h2 v _ _ e' e''
  · rcases h2 v _ _ e' e'' with rfl | g2
    · exact .inr g1
    · refine .inr fun x => ?_
      rw [g2 x, g1 x]
      cases Dict.get? σ d x <;> rfl

/-- The values given do not change. -/
theorem filled_given {σ : Store} {d : Dict Int} {vals vals' : Dict Int}
    (h : vals' = vals ∨ ∀ x, Dict.get? σ vals' x = (Dict.get? σ d x).or (Dict.get? σ vals x)) (x : Sec) :
    (Dict.get? σ d x).or (Dict.get? σ vals' x) = (Dict.get? σ d x).or (Dict.get? σ vals x) := by
  rcases h with rfl | h
  · rfl
  · rw [h x]
    cases Dict.get? σ d x <;> rfl

/-! ### Readings afterwards -/

/-- How a statement reads after provers were made. -/
inductive Later (σ : Store) (d : Dict Int) (M : List Sec → Prop) : Core E → Core E → Prop
  | leaf (s s' : DLRep E) (hn : s'.norm = s.norm) (hg : ∀ x, given σ d s' x = given σ d s x)
      (hm : s'.simulated = s.simulated ∨ M s.secretVars) : Later σ d M (.leaf s) (.leaf s')
  | and (b : Bool) (ts ts' : List (Core E)) (hl : ts'.length = ts.length)
      (h : ∀ (i : Nat) t t', ts[i]? = some t → ts'[i]? = some t' → Later σ d M t t') : Later σ d M (.and b ts) (.and b ts')
  | or (b : Bool) (ts ts' : List (Core E)) (hl : ts'.length = ts.length)
      (h : ∀ (i : Nat) t t', ts[i]? = some t → ts'[i]? = some t' → Later σ d M t t') : Later σ d M (.or b ts) (.or b ts')

theorem read_later {M : List Sec → Prop} {σ : Store} {d : Dict Int} {h h' : Objects E} (hf : Frame M h h')
    (hd : Filled σ d h h') : ∀ (n r : Nat) (t : Core E), h.read n r = some t →
      ∃ t', h'.read n r = some t' ∧ Later σ d M t t'
  | 0, _, _, hr => by simp [Objects.read] at hr
  | n + 1, r, t, hr => by
    have hrec : ∀ (rs : List Nat) (ts : List (Core E)), PTree.allSome (rs.map (h.read n)) = some ts →
        ∃ ts', PTree.allSome (rs.map (h'.read n)) = some ts' ∧ ts'.length = ts.length ∧
          ∀ (i : Nat) t t', ts[i]? = some t → ts'[i]? = some t' → Later σ d M t t' := by
      intro rs ts hts
      obtain ⟨ts', h1, h2, h3⟩ := reads_of (f := h'.read n) (rs := rs)
        (Q := fun i t' => ∀ t, ts[i]? = some t → Later σ d M t t') (by
          intro i r hi
          obtain ⟨t, e1, e2⟩ := reads_get hts hi
          obtain ⟨t', e3, e4⟩ := read_later hf hd n r t e2
          refine ⟨t', e3, fun u hu => ?_⟩
          rw [e1] at hu
          exact Option.some.inj hu ▸ e4)
      exact ⟨ts', h1, h2.trans (reads_length hts).symm, fun i t t' e e' => h3 i t' e' t e⟩
    simp only [Objects.read] at hr ⊢
    rcases hf.objs r with e | ⟨lhs, bases, vars, v, b, e, e', hM⟩
    · rw [e, hf.lists]
      cases ho : h.objs[r]? with
      | none => simp [ho] at hr
      | some o =>
        cases o with
        | rep lhs bases vars v b =>
          simp only [ho, Option.map_eq_some_iff] at hr ⊢
          obtain ⟨vals, h1, rfl⟩ := hr
          obtain ⟨vals', h2⟩ := hf.dict h1
          refine ⟨_, ⟨vals', h2, rfl⟩, .leaf _ _ rfl (fun x => ?_) (.inl rfl)⟩
          exact filled_given (hd v _ _ h1 h2) x
        | all l b =>
          simp only [ho] at hr ⊢
          cases hl : h.lists[l]? with
          | none => simp [hl] at hr
          | some rs =>
            simp only [hl, Option.bind_some, Option.map_eq_some_iff] at hr ⊢
            obtain ⟨ts, h1, rfl⟩ := hr
            obtain ⟨ts', h2, h3, h4⟩ := hrec rs ts h1
            exact ⟨_, ⟨ts', h2, rfl⟩, .and _ _ _ h3 h4⟩
        | any l b =>
          simp only [ho] at hr ⊢
          cases hl : h.lists[l]? with
          | none => simp [hl] at hr
          | some rs =>
            simp only [hl, Option.bind_some, Option.map_eq_some_iff] at hr ⊢
            obtain ⟨ts, h1, rfl⟩ := hr
            obtain ⟨ts', h2, h3, h4⟩ := hrec rs ts h1
            exact ⟨_, ⟨ts', h2, rfl⟩, .or _ _ _ h3 h4⟩
    · rw [e']
      simp only [e, Option.map_eq_some_iff] at hr ⊢
      obtain ⟨vals, h1, rfl⟩ := hr
      obtain ⟨vals', h2⟩ := hf.dict h1
      refine ⟨_, ⟨vals', h2, rfl⟩, .leaf _ _ rfl (fun x => ?_) (.inr hM)⟩
      exact filled_given (hd v _ _ h1 h2) x

theorem blankL_of_get {ts ts' : List (Core E)} (hl : ts'.length = ts.length)
    (h : ∀ (i : Nat) t t', ts[i]? = some t → ts'[i]? = some t' → Tree.blank t' = Tree.blank t) :
    Tree.blankL ts' = Tree.blankL ts := by
  rw [Tree.blankL_eq, Tree.blankL_eq]
  refine List.ext_getElem? fun i => ?_
  simp only [List.getElem?_map]
  cases hi : ts[i]? with
  | none => rw [List.getElem?_eq_none (by rw [hl]; exact List.getElem?_eq_none_iff.mp hi)]
  | some t =>
    have : i < ts'.length := by rw [hl]; exact (List.getElem?_eq_some_iff.mp hi).1
    rw [List.getElem?_eq_getElem this]
    simp [h i t _ hi (List.getElem?_eq_getElem this)]

theorem later_blank {σ : Store} {d : Dict Int} {M : List Sec → Prop} {t t' : Core E} (h : Later σ d M t t') :
    Tree.blank t' = Tree.blank t := by
  induction h with
  | leaf s s' hn _ _ => exact congrArg Tree.leaf hn
  | and b ts ts' hl _ ih => simp only [Tree.blank, blankL_of_get hl ih]
  | or b ts ts' hl _ ih => simp only [Tree.blank, blankL_of_get hl ih]

/-- Without looking at values, readings stay the same up to marks and values. -/
theorem read_blank {M : List Sec → Prop} {h h' : Objects E} (hf : Frame M h h') : ∀ (n r : Nat),
    (h'.read n r).map Tree.blank = (h.read n r).map Tree.blank
  | 0, _ => rfl
  | n + 1, r => by
    have hrec : ∀ (rs : List Nat), (PTree.allSome (rs.map (h'.read n))).map Tree.blankL =
        (PTree.allSome (rs.map (h.read n))).map Tree.blankL := by
      intro rs
      induction rs with
      | nil => rfl
      | cons r rs ih =>
        have := read_blank hf n r
        simp only [List.map_cons]
        cases e : h.read n r with
        | none =>
          rw [e] at this
          have e' : h'.read n r = none := by simpa using this
          simp [e', PTree.allSome]
        | some t =>
          rw [e] at this
          obtain ⟨t', e', hb⟩ := Option.map_eq_some_iff.mp this
          rw [e']
          simp only [PTree.allSome]
          cases f : PTree.allSome (rs.map (h.read n)) with
          | none =>
            rw [f] at ih
            have f' : PTree.allSome (rs.map (h'.read n)) = none := by simpa using ih
            simp [f']
          | some ts =>
            rw [f] at ih
            obtain ⟨ts', f', hbs⟩ := Option.map_eq_some_iff.mp ih
            rw [f']
            simp [Tree.blankL, hb, hbs]
    simp only [Objects.read]
    rcases hf.objs r with e | ⟨lhs, bases, vars, v, b, e, e', _⟩
    · rw [e, hf.lists]
      cases h.objs[r]? with
      | none => rfl
      | some o =>
        cases o with
        | rep lhs bases vars v b =>
          simp only [Option.map_map]
          cases h1 : h.dicts[v]? with
          | none => rw [List.getElem?_eq_none (by rw [hf.dicts]; exact List.getElem?_eq_none_iff.mp h1)]
          | some vals =>
            obtain ⟨vals', h2⟩ := hf.dict h1
            rw [h2]; rfl
        | all l b =>
          simp only
          cases hl : h.lists[l]? with
          | none => simp only [Option.bind_none]
          | some rs =>
            have := hrec rs
            simp only [Option.bind_some, Option.map_map]
            have e1 : (Tree.blank ∘ Tree.and b : List (Core E) → Core E) = (fun us => Tree.and false us) ∘ Tree.blankL := rfl
            rw [e1, ← Option.map_map, ← Option.map_map, this]
        | any l b =>
          simp only
          cases hl : h.lists[l]? with
          | none => simp only [Option.bind_none]
          | some rs =>
            have := hrec rs
            simp only [Option.bind_some, Option.map_map]
            have e1 : (Tree.blank ∘ Tree.or b : List (Core E) → Core E) = (fun us => Tree.or false us) ∘ Tree.blankL := rfl
            rw [e1, ← Option.map_map, ← Option.map_map, this]
    · rw [e, e']
      simp only [Option.map_map]
      cases h1 : h.dicts[v]? with
      | none => rw [List.getElem?_eq_none (by rw [hf.dicts]; exact List.getElem?_eq_none_iff.mp h1)]; rfl
      | some vals =>
        obtain ⟨vals', h2⟩ := hf.dict h1
        rw [h2]; rfl

end Zksk.Share
