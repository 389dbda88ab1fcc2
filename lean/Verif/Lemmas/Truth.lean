import Verif.SpecTruth
import Verif.Lemmas.Prim
import Verif.Props.Sound

/-! Truth of a statement and of the plain statement a verifier makes of it. -/

set_option linter.unusedSectionVars false

namespace Zksk

open Spec

variable {E : Type} [AddCommGroup E] [DecidableEq E]

theorem embedL_map (ks : List (Core E)) : embedL ks = ks.map embed := by
  induction ks with
  | nil => rfl
  | cons k ks ih => simp [embedL, ih]

theorem wellFormedL_all {ks : List (Core E)} : WellFormedL ks ↔ ∀ k ∈ ks, WellFormed k := by
  induction ks with
  | nil => simp [WellFormedL]
  | cons k ks ih => simp [WellFormedL, ih]

/-- `embed k` is true, well-formed, and without disjunctions, when `k` is. -/
theorem truth_embed {sem : ExtSpec E → (Key → Int) → Prop} {σ : Store} {k : Core E} {X : Key → Int}
    (h : Holds σ k X) : Truth sem σ (embed k) X := by
  induction h with
  | rep s X hg h => exact .rep s X hg h
  | all b subs X _ ih =>
    refine .all _ _ _ fun t ht => ?_
    rw [embedL_map] at ht
    obtain ⟨k, hk, rfl⟩ := List.mem_map.mp ht
    exact ih k hk
  | any b subs X X' k hk _ ih =>
    exact .any _ _ _ X' (embed k) (by rw [embedL_map]; exact List.mem_map_of_mem hk) ih

theorem wellFormed_embed {good : ExtSpec E → Prop} : ∀ (k : Core E), EveryLeaf (LeafOK good) (embed k) → WellFormed k := by
  intro k
  induction k using Tree.ind with
  | leaf s =>
    intro h
    cases h with
    | leaf _ h => exact h
  | and b subs ih =>
    intro h
    cases h with
    | all _ _ hne h =>
      rw [embedL_map] at hne h
      exact ⟨fun e => hne (by rw [e]; rfl), wellFormedL_all.mpr fun k hk => ih k hk (h _ (List.mem_map_of_mem hk))⟩
  | or b subs ih =>
    intro h
    cases h with
    | any _ _ hne h =>
      rw [embedL_map] at hne h
      exact ⟨fun e => hne (by rw [e]; rfl), wellFormedL_all.mpr fun k hk => ih k hk (h _ (List.mem_map_of_mem hk))⟩

theorem orFree_embed : ∀ (k : Core E), NoOr (embed k) → OrFree k := by
  intro k
  induction k using Tree.ind with
  | leaf s => exact fun _ => .rep s
  | and b subs ih =>
    intro h
    cases h with
    | all _ _ h =>
      rw [embedL_map] at h
      exact .all _ _ fun k hk => ih k hk (h _ (List.mem_map_of_mem hk))
  | or b subs ih => intro h; cases h

section
variable {sem : ExtSpec E → (Key → Int) → Prop} {good : ExtSpec E → Prop} {σ : Store}

/-- Positions of the three lists in a digested composition. -/
theorem get_three {α β γ : Type} {as : List α} {bs : List β} {cs : List γ} (hb : bs.length = as.length)
    (hc : cs.length = as.length) {i : Nat} (hi : i < as.length) :
    ∃ a b c, as[i]? = some a ∧ bs[i]? = some b ∧ cs[i]? = some c :=
  ⟨_, _, _, List.getElem?_eq_getElem hi, List.getElem?_eq_getElem (by omega), List.getElem?_eq_getElem (by omega)⟩

theorem digested_wellFormed (hsem : ∀ sp, good sp → ∀ v k, sp.construct σ v = .ok k → sp.validate v = .ok () →
      WellFormed k) {t : Stmt E} {v : Val E} {S : Skel E} {k : Core E} (hd : Digested σ t v S k)
    (ht : EveryLeaf (LeafOK good) t) : WellFormed k := by
  induction hd with
  | bare k => exact wellFormed_embed k ht
  | rep s v => cases ht with | leaf _ h => exact h
  | ext e v k hc hv => cases ht with | leaf _ h => exact hsem _ h _ _ hc hv
  | all b subs v vi Ss ks hv hS hk hvi h ih =>
    cases ht with
    | all _ _ hne ht =>
      refine ⟨fun e => hne (by rw [e] at hk; exact List.eq_nil_of_length_eq_zero hk.symm), wellFormedL_all.mpr fun k hm => ?_⟩
      obtain ⟨i, hi⟩ := List.mem_iff_getElem?.mp hm
      have hlt := (List.getElem?_eq_some_iff.mp hi).1
      obtain ⟨t, S, k', h1, h2, h3⟩ := get_three hS hk (i := i) (by omega)
      obtain rfl : k = k' := Option.some.inj (hi.symm.trans h3)
      exact ih i t S k h1 h2 h3 (ht t (List.mem_of_getElem? h1))
  | any b subs v vi Ss ks hv hS hk hvi h ih =>
    cases ht with
    | any _ _ hne ht =>
      refine ⟨fun e => hne (by rw [e] at hk; exact List.eq_nil_of_length_eq_zero hk.symm), wellFormedL_all.mpr fun k hm => ?_⟩
      obtain ⟨i, hi⟩ := List.mem_iff_getElem?.mp hm
      have hlt := (List.getElem?_eq_some_iff.mp hi).1
      obtain ⟨t, S, k', h1, h2, h3⟩ := get_three hS hk (i := i) (by omega)
      obtain rfl : k = k' := Option.some.inj (hi.symm.trans h3)
      exact ih i t S k h1 h2 h3 (ht t (List.mem_of_getElem? h1))

theorem digested_orFree (hsem : ∀ sp, good sp → ∀ v k, sp.construct σ v = .ok k → sp.validate v = .ok () →
      OrFree k) {t : Stmt E} {v : Val E} {S : Skel E} {k : Core E} (hd : Digested σ t v S k)
    (ht : EveryLeaf (LeafOK good) t) (hn : NoOr t) : OrFree k := by
  induction hd with
  | bare k => exact orFree_embed k hn
  | rep s v => exact .rep s
  | ext e v k hc hv => cases ht with | leaf _ h => exact hsem _ h _ _ hc hv
  | all b subs v vi Ss ks hv hS hk hvi h ih =>
    cases ht with
    | all _ _ hne ht =>
    cases hn with
    | all _ _ hn =>
      refine .all _ _ fun k hm => ?_
      obtain ⟨i, hi⟩ := List.mem_iff_getElem?.mp hm
      have hlt := (List.getElem?_eq_some_iff.mp hi).1
      obtain ⟨t, S, k', h1, h2, h3⟩ := get_three hS hk (i := i) (by omega)
      obtain rfl : k = k' := Option.some.inj (hi.symm.trans h3)
      exact ih i t S k h1 h2 h3 (ht t (List.mem_of_getElem? h1)) (hn t (List.mem_of_getElem? h1))
  | any b subs v vi Ss ks hv hS hk hvi h ih => cases hn

theorem digested_truth (hsem : ∀ sp, good sp → ∀ v k X, sp.construct σ v = .ok k → sp.validate v = .ok () →
      Holds σ k X → sem sp X) {t : Stmt E} {v : Val E} {S : Skel E} {k : Core E} (hd : Digested σ t v S k)
    (ht : EveryLeaf (LeafOK good) t) : ∀ {X : Key → Int}, Holds σ k X → Truth sem σ t X := by
  induction hd with
  | bare k => exact fun h => truth_embed h
  | rep s v =>
    intro X h
    cases h with | rep _ _ hg h => exact .rep s X hg h
  | ext e v k hc hv =>
    intro X h
    cases ht with | leaf _ hg => exact .ext e X (hsem _ hg _ _ _ hc hv h)
  | all b subs v vi Ss ks hv hS hk hvi h ih =>
    intro X hX
    cases ht with
    | all _ _ hne ht =>
    cases hX with
    | all _ _ _ hX =>
      refine .all _ _ _ fun t hm => ?_
      obtain ⟨i, hi⟩ := List.mem_iff_getElem?.mp hm
      have hlt := (List.getElem?_eq_some_iff.mp hi).1
      obtain ⟨t', S, k, h1, h2, h3⟩ := get_three hS hk (i := i) (by omega)
      obtain rfl : t = t' := Option.some.inj (hi.symm.trans h1)
      exact ih i t S k h1 h2 h3 (ht t hm) (hX k (List.mem_of_getElem? h3))
  | any b subs v vi Ss ks hv hS hk hvi h ih =>
    intro X hX
    cases ht with
    | any _ _ hne ht =>
    cases hX with
    | any _ _ _ X' k hm hX =>
      obtain ⟨i, hi⟩ := List.mem_iff_getElem?.mp hm
      have hlt := (List.getElem?_eq_some_iff.mp hi).1
      obtain ⟨t, S, k', h1, h2, h3⟩ := get_three hS hk (i := i) (by omega)
      obtain rfl : k = k' := Option.some.inj (hi.symm.trans h3)
      exact .any _ _ _ X' t (List.mem_of_getElem? h1) (ih i t S k h1 h2 h3 (ht t (List.mem_of_getElem? h1)) hX)

theorem occ_embed {t : Stmt E} {r : Val E} {x : Sec} {y : Val E} (h : Answered t r x y) :
    ∀ k : Core E, t = embed k → Occ k r x y := by
  induction h with
  | rep s r i x y hx hr =>
    intro k hk
    cases k with
    | leaf s' => simp only [embed, Tree.leaf.injEq, Leaf.dlrep.injEq] at hk; subst hk; exact .rep _ _ i _ _ hx hr
    | and b subs => simp [embed] at hk
    | or b subs => simp [embed] at hk
  | all b subs r ri i t x y ht hr _ ih =>
    intro k hk
    cases k with
    | leaf s' => simp [embed] at hk
    | or b subs => simp [embed] at hk
    | and b' ks =>
      simp only [embed, Tree.and.injEq, embedL_map] at hk
      obtain ⟨rfl, rfl⟩ := hk
      rw [List.getElem?_map, Option.map_eq_some_iff] at ht
      obtain ⟨k, hk, rfl⟩ := ht
      exact .all _ _ _ ri i k _ _ hk hr (ih k rfl)

theorem digested_occ {t : Stmt E} {v : Val E} {S : Skel E} {k : Core E} (hd : Digested σ t v S k) :
    ∀ {r : Val E} {x : Sec} {y : Val E}, Answered t r x y → Occ k r x y := by
  induction hd with
  | bare k => exact fun h => occ_embed h k rfl
  | rep s v =>
    intro r x y h
    cases h with | rep _ _ i _ _ hx hr => exact .rep _ _ i _ _ hx hr
  | ext e v k hc hv => intro r x y h; cases h
  | all b subs v vi Ss ks hv hS hk hvi h ih =>
    intro r x y ha
    cases ha with
    | all _ _ _ ri i t _ _ ht hr ha =>
      have hlt := (List.getElem?_eq_some_iff.mp ht).1
      obtain ⟨t', S, k, h1, h2, h3⟩ := get_three hS hk (i := i) (by omega)
      obtain rfl : t = t' := Option.some.inj (ht.symm.trans h1)
      exact .all _ _ _ ri i k _ _ h3 hr (ih i t S k h1 h2 h3 ha)
  | any b subs v vi Ss ks hv hS hk hvi h ih => intro r x y ha; cases ha

/-- What holds of a conjunction holds of all its leaves. -/
theorem truth_leaf {l : Leaf E} {t : Stmt E} (hl : HasLeaf l t) (hn : NoOr t) {X : Key → Int}
    (h : Truth sem σ t X) : Truth sem σ (.leaf l) X := by
  induction hl with
  | leaf => exact h
  | all b subs t ht _ ih =>
    cases hn with
    | all _ _ hn =>
    cases h with
    | all _ _ _ h => exact ih (hn t ht) (h t ht)
  | any b subs t ht _ ih => cases hn

theorem digestedTop_digested {t : Stmt E} {v : Val E} {S : Skel E} {k : Core E} (h : DigestedTop σ t v S k) :
    Digested σ t v S k := by
  rcases h with ⟨rfl, rfl, rfl⟩ | ⟨_, h⟩
  · exact .bare k
  · exact h

end

end Zksk
