import Verif.Lemmas.Simulate

/-! The group order check, spelled out. -/

set_option linter.unusedSectionVars false

namespace Zksk

open Spec

variable {E : Type} [AddCommGroup E] [DecidableEq E]

/-- Invariant of the dictionary of positions built over `vars`, the first `n` of which are done. -/
structure IdxInv (σ : Store) (vars : List Sec) (n : Nat) (d : Dict (List Nat)) : Prop where
  sound : ∀ u idxs, (u, idxs) ∈ d → idxs ≠ [] ∧
    ∀ i ∈ idxs, i < n ∧ ∃ x, vars[i]? = some x ∧ σ.key x = σ.key u
  complete : ∀ i x, i < n → vars[i]? = some x → ∃ idxs, Dict.get? σ d x = some idxs ∧ i ∈ idxs

theorem Dict.get?_mem {α : Type} {σ : Store} : ∀ {d : Dict α} {s : Sec} {v : α},
    Dict.get? σ d s = some v → ∃ u, (u, v) ∈ d ∧ σ.key u = σ.key s
  | [], _, _, h => by simp [Dict.get?] at h
  | (k, w) :: d, s, v, h => by
    simp only [Dict.get?] at h
    split at h
    · rename_i hk; injection h with h; subst h; exact ⟨k, by simp, hk⟩
    · obtain ⟨u, hu, e⟩ := Dict.get?_mem h; exact ⟨u, by simp [hu], e⟩

theorem Dict.mem_set {α : Type} {σ : Store} : ∀ {d : Dict α} {s : Sec} {v : α} {u : Sec} {w : α},
    (u, w) ∈ Dict.set σ d s v → (u, w) ∈ d ∨ (w = v ∧ σ.key u = σ.key s)
  | [], s, v, u, w, h => by simp [Dict.set] at h; right; exact ⟨h.2, by rw [h.1]⟩
  | (k, x) :: d, s, v, u, w, h => by
    simp only [Dict.set] at h
    split at h
    · rename_i hk
      rcases List.mem_cons.mp h with e | h
      · injection e with e1 e2; subst e1; right; exact ⟨e2, hk⟩
      · left; simp [h]
    · rcases List.mem_cons.mp h with e | h
      · left; simp [e]
      · rcases Dict.mem_set h with h | h
        · left; simp [h]
        · right; exact h

theorem indexDict_inv (σ : Store) (vars : List Sec) : ∀ (rest : List Sec) (n : Nat)
    (d : Dict (List Nat)), vars.drop n = rest → IdxInv σ vars n d →
    IdxInv σ vars vars.length (Tree.indexDict σ rest n d)
  | [], n, d, hr, h => by
    simp only [Tree.indexDict]
    have hn : vars.length ≤ n := by simpa using hr
    refine ⟨fun u idxs hm => ?_, fun i x hi hx => h.complete i x (by omega) hx⟩
    obtain ⟨h1, h2⟩ := h.sound u idxs hm
    refine ⟨h1, fun i hi => ?_⟩
    obtain ⟨_, x, hx, e⟩ := h2 i hi
    exact ⟨(List.getElem?_eq_some_iff.mp hx).1, x, hx, e⟩
  | s :: ss, n, d, hr, h => by
    simp only [Tree.indexDict]
    have hn : vars[n]? = some s := by
      have := congrArg (fun l => l[0]?) hr
      simpa using this
    have hss : vars.drop (n + 1) = ss := by
      have := congrArg List.tail hr
      simpa using this
    apply indexDict_inv σ vars ss (n + 1) _ hss
    refine ⟨fun u idxs hm => ?_, fun i x hi hx => ?_⟩
    · rcases Dict.mem_set hm with hm | ⟨rfl, hk⟩
      · obtain ⟨h1, h2⟩ := h.sound u idxs hm
        exact ⟨h1, fun i hi => ⟨by have := (h2 i hi).1; omega, (h2 i hi).2⟩⟩
      · refine ⟨by simp, fun i hi => ?_⟩
        rcases List.mem_append.mp hi with hi | hi
        · cases hg : Dict.get? σ d s with
          | none => simp [hg] at hi
          | some idxs =>
            simp only [hg, Option.getD_some] at hi
            obtain ⟨u', hu', e⟩ := Dict.get?_mem hg
            obtain ⟨a, x, hx, b⟩ := (h.sound u' idxs hu').2 i hi
            exact ⟨by omega, x, hx, by rw [b, e, hk]⟩
        · simp only [List.mem_singleton] at hi
          subst hi
          exact ⟨by omega, s, hn, hk.symm⟩
    · by_cases hin : i = n
      · subst hin
        rw [hn] at hx; cases hx
        exact ⟨_, by rw [Dict.get?_set, if_pos rfl], by simp⟩
      · obtain ⟨idxs, h1, h2⟩ := h.complete i x (by omega) hx
        rw [Dict.get?_set]
        by_cases hk : σ.key s = σ.key x
        · rw [if_pos hk]
          refine ⟨_, rfl, ?_⟩
          rw [Dict.get?_key hk, h1]
          simp [h2]
        · rw [if_neg hk]; exact ⟨idxs, h1, h2⟩

theorem checkOrders_cases (bs : List (Pt E)) (ref : Nat) : ∀ (is : List Nat),
    (∀ i ∈ is, i < bs.length) →
    (Tree.checkOrders bs ref is = .ok () ∧ ∀ i ∈ is, ∀ b, bs[i]? = some b → b.grp.order = ref) ∨
    (Tree.checkOrders bs ref is = .error .groupMismatch ∧
      ∃ i ∈ is, ∃ b, bs[i]? = some b ∧ b.grp.order ≠ ref)
  | [], _ => .inl ⟨rfl, by simp⟩
  | i :: is, h => by
    have hi : i < bs.length := h i (by simp)
    simp only [Tree.checkOrders, List.getElem?_eq_getElem hi]
    by_cases ho : bs[i].grp.order = ref
    · rw [if_pos ho]
      rcases checkOrders_cases bs ref is (fun j hj => h j (by simp [hj])) with ⟨h1, h2⟩ | ⟨h1, j, hj, h2⟩
      · left
        refine ⟨h1, fun j hj b hb => ?_⟩
        rcases List.mem_cons.mp hj with rfl | hj
        · rw [List.getElem?_eq_getElem hi] at hb; cases hb; exact ho
        · exact h2 j hj b hb
      · right; exact ⟨h1, j, by simp [hj], h2⟩
    · rw [if_neg ho]
      right
      exact ⟨rfl, i, by simp, bs[i], List.getElem?_eq_getElem hi, ho⟩

theorem checkAllOrders_cases (bs : List (Pt E)) : ∀ (d : Dict (List Nat)),
    (∀ u idxs, (u, idxs) ∈ d → idxs ≠ [] ∧ ∀ i ∈ idxs, i < bs.length) →
    (Tree.checkAllOrders bs d = .ok () ∧ ∀ u idxs, (u, idxs) ∈ d → ∀ i ∈ idxs, ∀ j ∈ idxs, ∀ b c,
      bs[i]? = some b → bs[j]? = some c → b.grp.order = c.grp.order) ∨
    (Tree.checkAllOrders bs d = .error .groupMismatch ∧ ∃ u idxs, (u, idxs) ∈ d ∧
      ∃ i ∈ idxs, ∃ j ∈ idxs, ∃ b c, bs[i]? = some b ∧ bs[j]? = some c ∧ b.grp.order ≠ c.grp.order)
  | [], _ => .inl ⟨rfl, by simp⟩
  | (u, idxs) :: d, h => by
    obtain ⟨hne, hlt⟩ := h u idxs (by simp)
    cases idxs with
    | nil => exact absurd rfl hne
    | cons i0 is =>
      have h0 := hlt i0 (by simp)
      simp only [Tree.checkAllOrders, List.head?_cons, List.getElem?_eq_getElem h0]
      rcases checkOrders_cases bs bs[i0].grp.order (i0 :: is) hlt with ⟨h1, h2⟩ | ⟨h1, j, hj, b, hb, h2⟩
      · rw [h1, bind_ok]
        rcases checkAllOrders_cases bs d (fun u idxs hm => h u idxs (by simp [hm])) with
          ⟨h3, h4⟩ | ⟨h3, u', is', hm, h4⟩
        · left
          refine ⟨h3, fun u' is' hm i hi j hj b c hb hc => ?_⟩
          rcases List.mem_cons.mp hm with e | hm
          · injection e with e1 e2; subst e2
            rw [h2 i hi b hb, h2 j hj c hc]
          · exact h4 u' is' hm i hi j hj b c hb hc
        · right; exact ⟨h3, u', is', by simp [hm], h4⟩
      · rw [h1, bind_err]
        right
        exact ⟨rfl, u, i0 :: is, by simp, j, hj, i0, by simp, b, bs[i0], hb,
          List.getElem?_eq_getElem h0, h2⟩

theorem mem_zip_iff {α β : Type} {l : List α} {l' : List β} {a : α} {b : β} :
    (a, b) ∈ l.zip l' ↔ ∃ i : Nat, l[i]? = some a ∧ l'[i]? = some b := by
  rw [List.mem_iff_getElem?]
  simp only [List.getElem?_zip_eq_some]

theorem validateGroupOrders_cases {L : Type} [StmtOps E L] [StmtView E L] (σ : Store) (t : Tree L)
    (k : Core E) (hk : Tree.core t = some k) (hwf : WellFormed k) :
    (Tree.validateGroupOrders σ t = .ok () ∧ SameOrders σ k) ∨
    (Tree.validateGroupOrders σ t = .error .groupMismatch ∧ ¬ SameOrders σ k) := by
  unfold Tree.validateGroupOrders
  rw [Tree.core_vars t k hk, Tree.core_bases t k hk, secretVars_core, bases_core, bind_ok, bind_ok]
  have inv := indexDict_inv σ (secrets k) (secrets k) 0 [] rfl ⟨by simp, by simp⟩
  have hlen := wf_length k hwf
  unfold SameOrders
  rw [wf_terms k hwf]
  rcases checkAllOrders_cases (coreBases k) (Tree.indexDict σ (secrets k) 0 []) (fun u idxs hm => by
    obtain ⟨h1, h2⟩ := inv.sound u idxs hm
    exact ⟨h1, fun i hi => by have := (h2 i hi).1; omega⟩) with ⟨h1, h2⟩ | ⟨h1, u, idxs, hm, i, hi, j, hj, b, c, hb, hc, h2⟩
  · left
    refine ⟨h1, fun x b y c hx hy hxy => ?_⟩
    obtain ⟨i, hxi, hbi⟩ := mem_zip_iff.mp hx
    obtain ⟨j, hyj, hcj⟩ := mem_zip_iff.mp hy
    obtain ⟨is, g1, g2⟩ := inv.complete i x (List.getElem?_eq_some_iff.mp hxi).1 hxi
    obtain ⟨js, g3, g4⟩ := inv.complete j y (List.getElem?_eq_some_iff.mp hyj).1 hyj
    rw [Dict.get?_key hxy, g3] at g1; cases g1
    obtain ⟨u, hu, _⟩ := Dict.get?_mem g3
    exact h2 u is hu i g2 j g4 b c hbi hcj
  · right
    refine ⟨h1, fun hs => h2 ?_⟩
    obtain ⟨_, g⟩ := inv.sound u idxs hm
    obtain ⟨_, x, hx, ex⟩ := g i hi
    obtain ⟨_, y, hy, ey⟩ := g j hj
    exact hs x b y c (mem_zip_iff.mpr ⟨i, hx, hb⟩) (mem_zip_iff.mpr ⟨j, hy, hc⟩) (ex.trans ey.symm)

/-- A single order per secret. -/
def OrdersOK (σ : Store) (q : Key → Nat) (k : Core E) : Prop :=
  ∀ x b, (x, b) ∈ terms k → q (σ.key x) = b.grp.order

theorem sameOrders_q {σ : Store} {k : Core E} (h : SameOrders σ k) : ∃ q, OrdersOK σ q k := by
  classical
  refine ⟨fun κ => if h : ∃ o : Nat, ∃ x b, (x, b) ∈ terms k ∧ σ.key x = κ ∧ b.grp.order = o
    then h.choose else 0, ?_⟩
  intro x b hx
  have hex : ∃ o : Nat, ∃ y c, (y, c) ∈ terms k ∧ σ.key y = σ.key x ∧ c.grp.order = o :=
    ⟨b.grp.order, x, b, hx, rfl, rfl⟩
  simp only [dif_pos hex]
  obtain ⟨y, c, hy, hk, ho⟩ := hex.choose_spec
  rw [← ho]
  exact h y c x b hy hx hk

end Zksk
