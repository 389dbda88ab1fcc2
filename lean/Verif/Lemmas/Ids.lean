import Verif.Model.Util
import Verif.Spec
import Mathlib.Data.List.Nodup

namespace Zksk

open Spec

theorem lookup_zipIdx_none {n : String} : ∀ (acc : List String) (k : Nat),
    (acc.zipIdx k).lookup n = none ↔ n ∉ acc
  | [], k => by simp
  | a :: acc, k => by
    rw [List.zipIdx_cons, List.lookup_cons]
    by_cases h : n = a
    · subst h; simp
    · have hb : (n == a) = false := by simpa using h
      rw [hb]
      simp [h, lookup_zipIdx_none acc (k + 1)]

theorem assignIdsGo_eq : ∀ (names acc : List String),
    assignIdsGo names acc.zipIdx acc.length
      = (names.foldl (fun acc a => if a ∈ acc then acc else acc ++ [a]) acc).zipIdx
  | [], acc => by simp [assignIdsGo]
  | n :: ns, acc => by
    rw [assignIdsGo, List.foldl_cons]
    by_cases h : n ∈ acc
    · have hne : (acc.zipIdx).lookup n ≠ none := by
        rw [Ne, lookup_zipIdx_none]; simpa using h
      obtain ⟨v, hv⟩ := Option.ne_none_iff_exists'.mp hne
      rw [hv]
      simp only [h, if_true]
      exact assignIdsGo_eq ns acc
    · have hn : (acc.zipIdx).lookup n = none := by rw [lookup_zipIdx_none]; exact h
      rw [hn]
      simp only [h, if_false]
      have := assignIdsGo_eq ns (acc ++ [n])
      rw [List.zipIdx_append] at this
      simpa using this

theorem assignSecretIds_eq (names : List String) :
    assignSecretIds names = (distinct names).zipIdx := by
  have := assignIdsGo_eq names []
  simpa [assignSecretIds, distinct] using this

theorem distinct_go {α : Type} [DecidableEq α] : ∀ (l acc : List α), acc.Nodup →
    (l.foldl (fun acc a => if a ∈ acc then acc else acc ++ [a]) acc).Nodup ∧
    ∀ x, x ∈ l.foldl (fun acc a => if a ∈ acc then acc else acc ++ [a]) acc ↔ x ∈ acc ∨ x ∈ l
  | [], acc, h => by simp [h]
  | a :: l, acc, h => by
    rw [List.foldl_cons]
    by_cases ha : a ∈ acc
    · simp only [ha, if_true]
      obtain ⟨h1, h2⟩ := distinct_go l acc h
      refine ⟨h1, fun x => ?_⟩
      rw [h2]
      simp only [List.mem_cons]
      constructor
      · rintro (h | h) <;> simp [h]
      · rintro (h | rfl | h) <;> simp [*]
    · simp only [ha, if_false]
      have hnd : (acc ++ [a]).Nodup := by
        rw [List.nodup_append]
        refine ⟨h, by simp, ?_⟩
        intro x hx y hy
        simp only [List.mem_singleton] at hy
        subst hy
        rintro rfl
        exact ha hx
      obtain ⟨h1, h2⟩ := distinct_go l _ hnd
      refine ⟨h1, fun x => ?_⟩
      rw [h2]
      simp only [List.mem_append, List.mem_cons]
      tauto

theorem distinct_nodup {α : Type} [DecidableEq α] (l : List α) : (distinct l).Nodup :=
  (distinct_go l [] List.nodup_nil).1

theorem mem_distinct {α : Type} [DecidableEq α] {l : List α} {x : α} : x ∈ distinct l ↔ x ∈ l := by
  have := (distinct_go l [] List.nodup_nil).2 x
  simpa [distinct] using this

theorem lookup_zipIdx_some {n : String} : ∀ (acc : List String) (k i : Nat), acc.Nodup →
    ((acc.zipIdx k).lookup n = some i ↔ ∃ j, i = k + j ∧ acc[j]? = some n)
  | [], k, i, _ => by simp
  | a :: acc, k, i, h => by
    rw [List.nodup_cons] at h
    rw [List.zipIdx_cons, List.lookup_cons]
    by_cases hn : n = a
    · subst hn
      simp only [beq_self_eq_true, Option.some.injEq]
      constructor
      · rintro rfl; exact ⟨0, by simp, by simp⟩
      · rintro ⟨j, hj, hj2⟩
        cases j with
        | zero => simp at hj; omega
        | succ j =>
          simp only [List.getElem?_cons_succ] at hj2
          exact absurd (List.mem_of_getElem? hj2) h.1
    · have : (n == a) = false := by simpa using hn
      rw [this]
      simp only []
      rw [lookup_zipIdx_some acc (k + 1) i h.2]
      constructor
      · rintro ⟨j, rfl, hj⟩
        exact ⟨j + 1, by omega, by simpa using hj⟩
      · rintro ⟨j, rfl, hj⟩
        cases j with
        | zero =>
          simp only [List.getElem?_cons_zero, Option.some.injEq] at hj
          exact absurd hj.symm hn
        | succ j => exact ⟨j, by omega, by simpa using hj⟩

theorem assign_lookup {names : List String} {n : String} {i : Nat} :
    (assignSecretIds names).lookup n = some i ↔ (distinct names)[i]? = some n := by
  rw [assignSecretIds_eq, lookup_zipIdx_some _ _ _ (distinct_nodup names)]
  simp

theorem assign_lookup_mem {names : List String} {n : String} (h : n ∈ names) :
    ∃ i, (assignSecretIds names).lookup n = some i := by
  have : n ∈ distinct names := mem_distinct.mpr h
  obtain ⟨i, hi⟩ := List.mem_iff_getElem?.mp this
  exact ⟨i, assign_lookup.mpr hi⟩

theorem assign_lookup_inj {names : List String} {n n' : String} {i : Nat}
    (h : (assignSecretIds names).lookup n = some i)
    (h' : (assignSecretIds names).lookup n' = some i) : n = n' := by
  rw [assign_lookup] at h h'
  rw [h] at h'
  exact Option.some.inj h'

theorem SamePattern.exists_map {α β : Type} [DecidableEq α] {l : List α} {l' : List β}
    (h : SamePattern l l') :
    ∃ f : α → Option β, l'.map some = l.map f ∧ ∀ a ∈ l, ∀ b ∈ l, f a = f b → a = b := by
  obtain ⟨hlen, hp⟩ := h
  refine ⟨fun a => l'[l.idxOf a]?, ?_, ?_⟩
  · apply List.ext_getElem?
    intro i
    simp only [List.getElem?_map]
    cases hi : l[i]? with
    | none =>
      have : l'[i]? = none := by
        rw [List.getElem?_eq_none_iff] at hi ⊢; omega
      simp [this]
    | some a =>
      have hmem : a ∈ l := List.mem_of_getElem? hi
      have hlt : l.idxOf a < l.length := List.idxOf_lt_length_of_mem hmem
      have hj : l[l.idxOf a]? = some a := by
        rw [List.getElem?_eq_getElem hlt]; simp
      have hi' : i < l'.length := by
        have := (List.getElem?_eq_some_iff.mp hi).1; omega
      have e1 : l'[i]? = some l'[i] := List.getElem?_eq_getElem hi'
      have e2 : l'[l.idxOf a]? = some (l'[l.idxOf a]'(by omega)) :=
        List.getElem?_eq_getElem (by omega)
      have := (hp i (l.idxOf a) a a _ _ hi hj e1 e2).mp rfl
      simp only [Option.map_some]
      rw [e1, e2, this]; rfl
  · intro a ha b hb hab
    have hla : l.idxOf a < l.length := List.idxOf_lt_length_of_mem ha
    have hlb : l.idxOf b < l.length := List.idxOf_lt_length_of_mem hb
    have ea : l[l.idxOf a]? = some a := by rw [List.getElem?_eq_getElem hla]; simp
    have eb : l[l.idxOf b]? = some b := by rw [List.getElem?_eq_getElem hlb]; simp
    have ea' : l'[l.idxOf a]? = some (l'[l.idxOf a]'(by omega)) :=
      List.getElem?_eq_getElem (by omega)
    have eb' : l'[l.idxOf b]? = some (l'[l.idxOf b]'(by omega)) :=
      List.getElem?_eq_getElem (by omega)
    refine (hp _ _ _ _ _ _ ea eb ea' eb').mpr ?_
    simp only [] at hab
    rw [ea', eb'] at hab
    exact Option.some.inj hab

theorem distinct_map_go {α β : Type} [DecidableEq α] [DecidableEq β] (f : α → β) :
    ∀ (l acc : List α), (∀ a ∈ acc ++ l, ∀ b ∈ acc ++ l, f a = f b → a = b) →
    (l.map f).foldl (fun acc a => if a ∈ acc then acc else acc ++ [a]) (acc.map f)
      = (l.foldl (fun acc a => if a ∈ acc then acc else acc ++ [a]) acc).map f
  | [], acc, _ => by simp
  | a :: l, acc, h => by
    rw [List.map_cons, List.foldl_cons, List.foldl_cons]
    by_cases ha : a ∈ acc
    · have : f a ∈ acc.map f := List.mem_map_of_mem ha
      simp only [ha, this, if_true]
      apply distinct_map_go f l acc
      intro x hx y hy
      apply h x _ y _
      · simp only [List.mem_append, List.mem_cons] at hx ⊢; tauto
      · simp only [List.mem_append, List.mem_cons] at hy ⊢; tauto
    · have : f a ∉ acc.map f := by
        intro hm
        obtain ⟨b, hb, hbe⟩ := List.mem_map.mp hm
        have := h b (by simp [hb]) a (by simp) hbe
        subst this; exact ha hb
      simp only [ha, this, if_false]
      have := distinct_map_go f l (acc ++ [a]) (by
        intro x hx y hy
        apply h x _ y _
        · simpa using hx
        · simpa using hy)
      simpa using this

theorem distinct_map {α β : Type} [DecidableEq α] [DecidableEq β] (f : α → β) (l : List α)
    (h : ∀ a ∈ l, ∀ b ∈ l, f a = f b → a = b) :
    distinct (l.map f) = (distinct l).map f := by
  have := distinct_map_go f l [] (by simpa using h)
  simpa [distinct] using this

/-- Names with the same pattern get the same identifiers. -/
theorem assign_samePattern {names names' : List String} (h : SamePattern names names')
    {i k : Nat} {n n' : String} (hn : names[i]? = some n) (hn' : names'[i]? = some n')
    (hk : (assignSecretIds names).lookup n = some k) :
    (assignSecretIds names').lookup n' = some k := by
  obtain ⟨f, hf, hinj⟩ := SamePattern.exists_map h
  rw [assign_lookup] at hk ⊢
  have h1 : distinct (names.map f) = (distinct names).map f := distinct_map f names hinj
  have h2 : distinct (names'.map some) = (distinct names').map some :=
    distinct_map some names' (by intro a _ b _; exact Option.some.inj)
  have h3 : (distinct names').map some = (distinct names).map f := by rw [← h1, ← h2, hf]
  have h4 : f n = some n' := by
    have := congrArg (fun l => l[i]?) hf
    simp only [List.getElem?_map, hn, hn', Option.map_some] at this
    exact (Option.some.inj this).symm
  have := congrArg (fun l => l[k]?) h3
  simp only [List.getElem?_map, hk, Option.map_some, h4] at this
  cases hx : (distinct names')[k]? with
  | none => rw [hx] at this; cases this
  | some x => rw [hx] at this; simp at this; rw [this]

end Zksk
