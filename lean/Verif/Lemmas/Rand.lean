import Verif.Lemmas.Accept

/-! Facts about randomizer dictionaries. -/

set_option linter.unusedSectionVars false

namespace Zksk

open Spec

variable {E : Type} [AddCommGroup E] [DecidableEq E]

namespace Dict
variable {α β : Type}

theorem get?_set_none {σ : Store} {d : Dict α} {s s' : Sec} {v : α}
    (h : get? σ (set σ d s v) s' = none) : get? σ d s' = none ∧ σ.key s ≠ σ.key s' := by
  rw [get?_set] at h
  split at h
  · cases h
  · rename_i hk; exact ⟨h, hk⟩

theorem Uniq.set {σ : Store} : ∀ {d : Dict α}, Uniq σ d → ∀ (s : Sec) (v : α), Uniq σ (set σ d s v)
  | [], _, s, v => by simp [Dict.set, Uniq, get?]
  | (k, w) :: d, h, s, v => by
    simp only [Dict.set]
    split
    · exact h
    · rename_i hk
      refine ⟨?_, h.2.set s v⟩
      rw [get?_set, if_neg (fun e => hk e.symm)]
      exact h.1

theorem Uniq.update {σ : Store} : ∀ {e d : Dict α}, Uniq σ d → Uniq σ (update σ d e)
  | [], _, h => h
  | kv :: e, d, h => by
    have := Uniq.update (e := e) (h.set kv.1 kv.2)
    exact this

/-- Whether a key is present depends only on the list of keys. -/
theorem get?_isSome_keys {σ : Store} : ∀ {d : Dict α} {d' : Dict β}, d.map Prod.fst = d'.map Prod.fst →
    ∀ s, (get? σ d s).isSome = (get? σ d' s).isSome
  | [], [], _, _ => rfl
  | [], _ :: _, h, _ => by simp at h
  | _ :: _, [], h, _ => by simp at h
  | (k, v) :: d, (k', v') :: d', h, s => by
    simp only [List.map_cons, List.cons.injEq] at h
    obtain ⟨rfl, h⟩ := h
    simp only [get?]
    split
    · rfl
    · exact get?_isSome_keys h s

theorem Uniq.keys {σ : Store} : ∀ {d : Dict α} {d' : Dict β}, d.map Prod.fst = d'.map Prod.fst →
    Uniq σ d → Uniq σ d'
  | [], [], _, _ => trivial
  | [], _ :: _, h, _ => by simp at h
  | _ :: _, [], h, _ => by simp at h
  | (k, v) :: d, (k', v') :: d', h, hu => by
    simp only [List.map_cons, List.cons.injEq] at h
    obtain ⟨rfl, h⟩ := h
    refine ⟨?_, Uniq.keys h hu.2⟩
    have := get?_isSome_keys (σ := σ) h k
    rw [hu.1] at this
    simpa using this

end Dict

namespace Tree

theorem drawDict_ok : ∀ (d : Dict Nat) (w w' : World) (ks : Dict Int),
    drawDict d w = .ok (ks, w') → w'.store = w.store ∧ ks.map Prod.fst = d.map Prod.fst
  | [], w, w', ks, h => by
    simp only [drawDict, pm_pure_iff, Prod.mk.injEq] at h
    obtain ⟨rfl, rfl⟩ := h; exact ⟨rfl, rfl⟩
  | (u, o) :: d, w, w', ks, h => by
    simp only [drawDict] at h
    obtain ⟨k, w1, h1, h⟩ := pm_bind.mp h
    obtain ⟨ks', w2, h2, h⟩ := pm_bind.mp h
    rw [pm_pure_iff, Prod.mk.injEq] at h
    obtain ⟨e1, e2⟩ := drawDict_ok d w1 w2 ks' h2
    obtain ⟨rfl, rfl⟩ := h
    exact ⟨e1.trans (draw_ok h1).2.2.2, by simp [e2]⟩

theorem orderDict_go (σ : Store) : ∀ (z : List (Sec × Pt E)) (d : Dict Nat), d.Uniq σ →
    Dict.Uniq σ (z.foldl (fun d sg => Dict.set σ d sg.1 sg.2.grp.order) d) ∧
    ∀ s, ((Dict.get? σ d s).isSome ∨ ∃ x b, (x, b) ∈ z ∧ σ.key x = σ.key s) →
      (Dict.get? σ (z.foldl (fun d sg => Dict.set σ d sg.1 sg.2.grp.order) d) s).isSome
  | [], d, h => ⟨h, fun s hs => by
      rcases hs with hs | ⟨x, b, hx, _⟩
      · exact hs
      · cases hx⟩
  | (x, b) :: z, d, h => by
    obtain ⟨h1, h2⟩ := orderDict_go σ z _ (h.set x b.grp.order)
    refine ⟨h1, fun s hs => h2 s ?_⟩
    by_cases hk : σ.key x = σ.key s
    · left; rw [Dict.get?_set, if_pos hk]; rfl
    · rcases hs with hs | ⟨y, c, hy, hyk⟩
      · left; rw [Dict.get?_set, if_neg hk]; exact hs
      · rcases List.mem_cons.mp hy with e | hy
        · injection e with e1 e2; subst e1; exact absurd hyk hk
        · right; exact ⟨y, c, hy, hyk⟩

theorem mem_zip_left {α β : Type} : ∀ {l : List α} {l' : List β} {a : α}, a ∈ l → l.length ≤ l'.length →
    ∃ b, (a, b) ∈ l.zip l'
  | a :: l, [], _, _, hl => by simp at hl
  | a :: l, b :: l', x, h, hl => by
    rcases List.mem_cons.mp h with rfl | h
    · exact ⟨b, by simp⟩
    · obtain ⟨c, hc⟩ := mem_zip_left h (by simpa using hl)
      exact ⟨c, by simp [hc]⟩

/-- What a randomizer dictionary for the secrets `vars` must satisfy. -/
def GoodDict (σ : Store) (vars : List Sec) (d : Dict Int) : Prop :=
  d.Uniq σ ∧ ∀ x ∈ vars, ∃ v, Dict.get? σ d x = some v

theorem getRandomizers_ok {L : Type} [StmtOps E L] {t : Tree L} {w w' : World} {d : Dict Int}
    {vars : List Sec} {bs : List (Pt E)} (hv : secretVars t = .ok vars) (hb : bases t = .ok bs)
    (hl : vars.length ≤ bs.length) (h : getRandomizers t w = .ok (d, w')) :
    w'.store = w.store ∧ GoodDict w.store vars d := by
  unfold getRandomizers at h
  rw [pm_getStore_bind, hv, hb, pm_liftE_bind, pm_liftE_bind] at h
  obtain ⟨e1, e2⟩ := drawDict_ok _ _ _ _ h
  obtain ⟨g1, g2⟩ := orderDict_go w.store (vars.zip bs) [] trivial
  refine ⟨e1, Dict.Uniq.keys e2.symm g1, fun x hx => ?_⟩
  obtain ⟨b, hb⟩ := mem_zip_left hx hl
  have := g2 x (.inr ⟨x, b, hb, rfl⟩)
  have e3 := Dict.get?_isSome_keys (σ := w.store) e2 x
  exact Option.isSome_iff_exists.mp (e3.trans this)

theorem dedupGo_mem (σ : Store) : ∀ (vs seen : List Sec) (x : Sec), x ∈ vs →
    (∃ y ∈ seen, σ.key y = σ.key x) ∨ ∃ y ∈ dedupGo σ vs seen, σ.key y = σ.key x
  | v :: vs, seen, x, h => by
    simp only [dedupGo]
    rcases List.mem_cons.mp h with rfl | h
    · split
      · rename_i hs
        left
        obtain ⟨y, hy, e⟩ := List.any_eq_true.mp hs
        exact ⟨y, hy, by simpa using e⟩
      · right; exact ⟨x, by simp, rfl⟩
    · split
      · exact dedupGo_mem σ vs seen x h
      · rcases dedupGo_mem σ vs (v :: seen) x h with ⟨y, hy, e⟩ | ⟨y, hy, e⟩
        · rcases List.mem_cons.mp hy with rfl | hy
          · right; exact ⟨y, by simp, e⟩
          · left; exact ⟨y, hy, e⟩
        · right; exact ⟨y, by simp [hy], e⟩

theorem dedupGo_fresh (σ : Store) : ∀ (vs seen : List Sec) (x : Sec), x ∈ dedupGo σ vs seen →
    ∀ y ∈ seen, σ.key y ≠ σ.key x
  | v :: vs, seen, x, h => by
    simp only [dedupGo] at h
    split at h
    · exact dedupGo_fresh σ vs seen x h
    · rename_i hs
      rcases List.mem_cons.mp h with rfl | h
      · intro y hy e
        exact hs (List.any_eq_true.mpr ⟨y, hy, by simpa using e⟩)
      · intro y hy
        exact dedupGo_fresh σ vs (v :: seen) x h y (by simp [hy])

end Tree

namespace DLRep

theorem drawAll_ok (order : Nat) : ∀ (l : List Sec) (w w' : World) (ks : Dict Int),
    drawAll order l w = .ok (ks, w') → w'.store = w.store ∧ ks.map Prod.fst = l
  | [], w, w', ks, h => by
    simp only [drawAll, pm_pure_iff, Prod.mk.injEq] at h
    obtain ⟨rfl, rfl⟩ := h; exact ⟨rfl, rfl⟩
  | s :: l, w, w', ks, h => by
    simp only [drawAll] at h
    obtain ⟨k, w1, h1, h⟩ := pm_bind.mp h
    obtain ⟨ks', w2, h2, h⟩ := pm_bind.mp h
    rw [pm_pure_iff, Prod.mk.injEq] at h
    obtain ⟨e1, e2⟩ := drawAll_ok order l w1 w2 ks' h2
    obtain ⟨rfl, rfl⟩ := h
    exact ⟨e1.trans (draw_ok h1).2.2.2, by simp [e2]⟩

theorem get?_none_of_keys {α : Type} {σ : Store} : ∀ {d : Dict α} {s : Sec},
    (∀ x ∈ d.map Prod.fst, σ.key x ≠ σ.key s) → Dict.get? σ d s = none
  | [], _, _ => rfl
  | (k, v) :: d, s, h => by
    simp only [Dict.get?]
    rw [if_neg (h k (by simp))]
    exact get?_none_of_keys (fun x hx => h x (by simp at hx ⊢; exact .inr hx))

theorem get?_some_of_keys {α : Type} {σ : Store} : ∀ {d : Dict α} {s : Sec},
    (∃ x ∈ d.map Prod.fst, σ.key x = σ.key s) → ∃ v, Dict.get? σ d s = some v
  | [], _, h => by simp at h
  | (k, v) :: d, s, h => by
    simp only [Dict.get?]
    by_cases hk : σ.key k = σ.key s
    · exact ⟨v, by rw [if_pos hk]⟩
    · rw [if_neg hk]
      obtain ⟨x, hx, e⟩ := h
      rcases List.mem_cons.mp hx with rfl | hx
      · exact absurd e hk
      · exact get?_some_of_keys ⟨x, hx, e⟩

theorem uniq_dedup {α : Type} (σ : Store) : ∀ (vs seen : List Sec) (d : Dict α),
    d.map Prod.fst = Tree.dedupGo σ vs seen → d.Uniq σ
  | [], seen, d, h => by
    simp only [Tree.dedupGo, List.map_eq_nil_iff] at h; subst h; trivial
  | v :: vs, seen, d, h => by
    simp only [Tree.dedupGo] at h
    split at h
    · exact uniq_dedup σ vs seen d h
    · cases d with
      | nil => simp at h
      | cons kv d =>
        simp only [List.map_cons, List.cons.injEq] at h
        refine ⟨get?_none_of_keys ?_, uniq_dedup σ vs _ d h.2⟩
        intro x hx e
        rw [h.2] at hx
        exact Tree.dedupGo_fresh σ vs _ x hx v (by simp) (by rw [e, h.1])

theorem getRandomizers_ok {s : DLRep E} {w w' : World} {d : Dict Int}
    (h : getRandomizers s w = .ok (d, w')) :
    w'.store = w.store ∧ Tree.GoodDict w.store s.secretVars d := by
  unfold getRandomizers at h
  cases hbs : s.bases with
  | nil => simp only [hbs, raise_ne] at h
  | cons b bs =>
    simp only [hbs] at h
    rw [pm_getStore_bind] at h
    obtain ⟨e1, e2⟩ := drawAll_ok _ _ _ _ _ h
    refine ⟨e1, uniq_dedup _ _ _ _ e2, fun x hx => ?_⟩
    rcases Tree.dedupGo_mem w.store s.secretVars [] x hx with ⟨y, hy, _⟩ | h
    · cases hy
    · exact get?_some_of_keys (by rw [e2]; exact h)

end DLRep

/-- `update_randomizers` yields a good dictionary that respects the given one. -/
theorem updateRandomizersWith_ok {vars : List Sec} {getR : PM (Dict Int)} {d : Option (Dict Int)}
    {w w' : World} {d' : Dict Int}
    (hR : ∀ w' d', getR w = .ok (d', w') → w'.store = w.store ∧ Tree.GoodDict w.store vars d')
    (hu : ∀ d0, d = some d0 → d0.Uniq w.store)
    (h : Tree.updateRandomizersWith (.ok vars) getR d w = .ok (d', w')) :
    w'.store = w.store ∧ Tree.GoodDict w.store vars d' ∧
      ∀ d0, d = some d0 → ∀ x v, Dict.get? w.store d0 x = some v → Dict.get? w.store d' x = some v := by
  cases d with
  | none =>
    obtain ⟨h1, h2⟩ := hR _ _ h
    exact ⟨h1, h2, by simp⟩
  | some d0 =>
    simp only [Tree.updateRandomizersWith] at h
    rw [pm_getStore_bind, pm_liftE_bind] at h
    split at h
    · obtain ⟨tmp, w2, h2, h⟩ := pm_bind.mp h
      rw [pm_pure_iff, Prod.mk.injEq] at h
      obtain ⟨e1, e2, e3⟩ := hR _ _ h2
      obtain ⟨rfl, rfl⟩ := h
      refine ⟨e1, ⟨Dict.Uniq.update e2, fun x hx => ?_⟩, ?_⟩
      · have := Dict.has_update (σ := w.store) (e := d0) (s := x) tmp
        obtain ⟨v, hv⟩ := e3 x hx
        rw [hv] at this
        exact Option.isSome_iff_exists.mp (by simpa using this)
      · intro d1 hd1 x v hv
        cases hd1
        exact Dict.get?_update_uniq (hu d0 rfl) tmp x v hv
    · rename_i hall
      rw [pm_pure_iff, Prod.mk.injEq] at h
      obtain ⟨hd, hw⟩ := h
      subst hw; rw [← hd]
      refine ⟨rfl, ⟨hu d0 rfl, fun x hx => ?_⟩, ?_⟩
      · by_contra hcon
        apply hall
        rw [List.any_eq_true]
        refine ⟨x, hx, ?_⟩
        cases hg : Dict.get? w.store d0 x with
        | none => simp [Dict.has, hg]
        | some v => exact absurd ⟨v, hg⟩ hcon
      · intro d1 hd1 x v hv
        rw [Option.some.inj hd1]; exact hv

end Zksk
