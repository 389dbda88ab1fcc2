import Verif.Lemmas.StmtRun
import Verif.Lemmas.Prim

/-! Statements built from secrets whose values are known. -/

set_option linter.unusedSectionVars false

namespace Zksk

open Spec

variable {E : Type} [AddCommGroup E] [DecidableEq E]

theorem get?_knownValues (σ : Store) (x : Sec) : ∀ (vs : List Sec) (d : Dict Int),
    (Dict.get? σ d x = none ∨ Dict.get? σ d x = σ.value x) → (x ∈ vs ∨ Dict.get? σ d x = σ.value x) →
    Dict.get? σ (knownValues σ vs d) x = σ.value x
  | [], d, h, h' => by
    rcases h' with h' | h'
    · simp at h'
    · exact h'
  | s :: vs, d, h, h' => by
    simp only [knownValues]
    cases hv : σ.value s with
    | none =>
      refine get?_knownValues σ x vs d h ?_
      rcases h' with h' | h'
      · rcases List.mem_cons.mp h' with rfl | h'
        · rcases h with h | h
          · exact .inr (h.trans hv.symm)
          · exact .inr h
        · exact .inl h'
      · exact .inr h'
    | some v =>
      by_cases hk : σ.key s = σ.key x
      · have he : Dict.get? σ (Dict.set σ d s v) x = σ.value x := by
          rw [Dict.get?_set, if_pos hk, ← hv]
          exact congrArg Prod.snd hk
        exact get?_knownValues σ x vs _ (.inr he) (.inr he)
      · have he : Dict.get? σ (Dict.set σ d s v) x = Dict.get? σ d x := by
          rw [Dict.get?_set, if_neg hk]
        refine get?_knownValues σ x vs _ (by rw [he]; exact h) ?_
        rw [he]
        rcases h' with h' | h'
        · rcases List.mem_cons.mp h' with rfl | h'
          · exact (hk rfl).elim
          · exact .inl h'
        · exact .inr h'

theorem knownValues_keys (σ : Store) : ∀ (vs : List Sec) (d : Dict Int) (e : Sec × Int),
    e ∈ knownValues σ vs d → e.1 ∈ vs ∨ e.1 ∈ d.map Prod.fst
  | [], d, e, h => .inr (List.mem_map_of_mem h)
  | s :: vs, d, e, h => by
    simp only [knownValues] at h
    split at h
    · rename_i v _
      rcases knownValues_keys σ vs _ e h with h | h
      · exact .inl (by simp [h])
      · obtain ⟨e', he', hee⟩ := List.mem_map.mp h
        rw [← hee]
        rcases mem_set_key he' with h | h
        · exact .inr (List.mem_map.mpr h)
        · exact .inl (by simp [h])
    · rcases knownValues_keys σ vs _ e h with h | h
      · exact .inl (by simp [h])
      · exact .inr h

/-- The dictionary says of its secrets what the heap says. -/
def Told (σ : Store) (d : Dict Int) : Prop := ∀ e ∈ d, σ.value e.1 = some e.2

theorem get?_told {σ : Store} {x : Sec} : ∀ {d : Dict Int}, Told σ d → ∀ {n : Int}, Dict.get? σ d x = some n →
    σ.value x = some n
  | [], _, n, h => by simp [Dict.get?] at h
  | e :: d, ht, n, h => by
    simp only [Dict.get?] at h
    split at h
    · rename_i hk
      injection h with h; subst h
      rw [← ht e (by simp)]
      exact (congrArg Prod.snd hk).symm
    · exact get?_told (fun e he => ht e (by simp [he])) h

theorem told_same {σ σ' : Store} {d : Dict Int} (h : Told σ d)
    (hs : ∀ x ∈ d.map Prod.fst, σ'.key x = σ.key x) : Told σ' d := by
  intro e he
  rw [← h e he]
  exact congrArg Prod.snd (hs e.1 (List.mem_map_of_mem he))

theorem uniq_nodup {σ : Store} : ∀ {d : Dict Int}, d.Uniq σ → (d.map Prod.fst).Nodup
  | [], _ => List.nodup_nil
  | e :: d, h => by
    rw [List.map_cons, List.nodup_cons]
    refine ⟨fun hm => ?_, uniq_nodup h.2⟩
    have key : ∀ (d : Dict Int), e.1 ∈ d.map Prod.fst → Dict.get? σ d e.1 ≠ none := by
      intro d
      induction d with
      | nil => simp
      | cons e' d ih =>
        intro hm
        simp only [Dict.get?]
        split
        · simp
        · rename_i hk
          rcases List.mem_cons.mp hm with he | hm
          · rw [he] at hk; exact (hk rfl).elim
          · exact ih hm
    exact key d hm h.1

theorem told_update : ∀ (d : Dict Int) (σ : Store), (d.map Prod.fst).Nodup → Told (updateSecretValues σ d) d
  | [], σ, _ => by intro e he; simp at he
  | e :: d, σ, h => by
    rw [List.map_cons, List.nodup_cons] at h
    intro e' he'
    have heq : updateSecretValues σ (e :: d) = updateSecretValues (σ.setValue e.1 e.2) d := rfl
    rw [heq]
    rcases List.mem_cons.mp he' with rfl | he'
    · rw [(updateSecretValues_value d _ σ e'.1).2 h.1]
      simp [Store.setValue]
    · exact told_update d _ h.2 e' he'

theorem told_of_uniq {σ : Store} {d : Dict Int} (h : d.Uniq (updateSecretValues σ d)) :
    Told (updateSecretValues σ d) d := told_update d σ (uniq_nodup h)

theorem given_known {σ : Store} {d : Dict Int} (hd : Told σ d) {s : DLRep E}
    (hk : s.secretValues = knownValues σ s.secretVars []) {x : Sec} (hx : x ∈ s.secretVars) {n : Int}
    (hv : σ.value x = some n) : given σ d s x = some n := by
  unfold given
  cases h : Dict.get? σ d x with
  | some m => rw [← hv, get?_told hd h]; rfl
  | none =>
    rw [hk, Option.none_or, get?_knownValues σ x _ _ (.inl rfl) (.inl hx), hv]

/-- A representation built in the heap. -/
theorem satisfied_rep {σ : Store} {d : Dict Int} (hd : Told σ d) {s : DLRep E}
    (hk : s.secretValues = knownValues σ s.secretVars [])
    (hv : ∀ x ∈ s.secretVars, (σ.value x).isSome) (h : Holds σ (.leaf s) valueOf) :
    Satisfied σ d valueOf (.leaf s) := by
  refine .rep s (fun x hx => ?_) h
  obtain ⟨n, hn⟩ := Option.isSome_iff_exists.mp (hv x hx)
  rw [given_known hd hk hx hn]
  simp [valueOf, Store.key, hn]

theorem composable_orFree {σ : Store} {q : Nat} {k : Core E} (h : OrFree k) : OneOrder q k → Composable σ k := by
  induction h with
  | rep s => intro _; exact .leaf s
  | all b subs h ih =>
    intro ho
    refine .and b subs (fun x b y c hx hy _ => by rw [ho x b hx, ho y c hy]) ?_ fun t ht => ih t ht
      fun x b hx => ho x b (by simp only [terms]; exact mem_termsL.mpr ⟨t, ht, hx⟩)
    intro pre u post hor
    exfalso
    have key : ∀ (t : Core E), OrFree t → ∀ pre u post, OrAt t pre u post → False := by
      intro t ht pre u post ho
      induction ho with
      | here b subs => cases ht
      | down b ls t rs pre post u _ ih =>
        cases ht with
        | all _ _ ht => exact ih (ht t (by simp))
    exact key _ (.all b subs h) pre u post hor

end Zksk
