import Verif.Lemmas.View

/-! Two statements with the same skeleton and the same pattern of secrets are verified alike. -/

set_option linter.unusedSectionVars false

namespace Zksk

open Spec

variable {E : Type} [AddCommGroup E] [DecidableEq E]

/-! ### Dictionaries -/

namespace Dict
variable {α : Type}

theorem get?_set (σ : Store) : ∀ (d : Dict α) (s s' : Sec) (v : α),
    get? σ (set σ d s v) s' = if σ.key s = σ.key s' then some v else get? σ d s'
  | [], s, s', v => by simp [set, get?]
  | (k, w) :: d, s, s', v => by
    simp only [set]
    by_cases h : σ.key k = σ.key s
    · simp only [h, if_true, get?]
      split <;> rfl
    · simp only [h, if_false, get?]
      by_cases h2 : σ.key k = σ.key s'
      · have : ¬ σ.key s = σ.key s' := fun e => h (h2.trans e.symm)
        simp [h2, this]
      · simp only [h2, if_false]
        exact get?_set σ d s s' v

theorem get?_key {σ : Store} {d : Dict α} {s s' : Sec} (h : σ.key s = σ.key s') :
    get? σ d s = get? σ d s' := by
  induction d with
  | nil => rfl
  | cons e d ih => simp only [get?, h, ih]

theorem get_ok {σ : Store} {d : Dict α} {s : Sec} {v : α} :
    get σ d s = .ok v ↔ get? σ d s = some v := by
  unfold get
  cases h : get? σ d s <;> simp

theorem get?_update_cons (σ : Store) (d e : Dict α) (kv : Sec × α) (s : Sec) :
    get? σ (update σ d (kv :: e)) s = get? σ (update σ (set σ d kv.1 kv.2) e) s := rfl

/-- A lookup after `update` finds the updating dictionary's entry if there is one. -/
theorem get?_update_of_none {σ : Store} {e : Dict α} {s : Sec} (d : Dict α)
    (h : get? σ e s = none) : get? σ (update σ d e) s = get? σ d s := by
  induction e generalizing d with
  | nil => rfl
  | cons kv e ih =>
    simp only [get?] at h
    split at h
    · cases h
    · rename_i hk
      rw [get?_update_cons, ih _ h, get?_set, if_neg hk]

theorem has_update {σ : Store} {e : Dict α} {s : Sec} (d : Dict α) :
    (get? σ (update σ d e) s).isSome = ((get? σ d s).isSome || (get? σ e s).isSome) := by
  induction e generalizing d with
  | nil => simp [update, get?]
  | cons kv e ih =>
    rw [get?_update_cons, ih]
    simp only [get?_set, get?]
    by_cases hk : σ.key kv.1 = σ.key s <;> simp [hk]

theorem get?_update_uniq {σ : Store} : ∀ {e : Dict α}, Uniq σ e → ∀ (d : Dict α) (s : Sec) (v : α),
    get? σ e s = some v → get? σ (update σ d e) s = some v
  | [], _, d, s, v, h => by simp [get?] at h
  | kv :: e, hu, d, s, v, h => by
    rw [get?_update_cons]
    simp only [get?] at h
    split at h
    · rename_i hk
      injection h with h; subst h
      rw [get?_update_of_none _ (by rw [← get?_key hk]; exact hu.1), get?_set, if_pos hk]
    · exact get?_update_uniq hu.2 _ s v h

end Dict

/-! ### Secrets of a core statement -/

abbrev coreVars (t : Core E) : List Sec := Spec.secrets t
abbrev coreVarsL (ts : List (Core E)) : List Sec := Spec.secretsL ts

mutual
theorem secretVars_core : ∀ (t : Core E), Tree.secretVars t = .ok (coreVars t)
  | .leaf s => by simp only [Tree.secretVars, StmtOps.secretVars, secrets]
  | .and _ subs => by simp only [Tree.secretVars, secrets, secretVarsL_core subs]
  | .or _ subs => by simp only [Tree.secretVars, secrets, secretVarsL_core subs]
theorem secretVarsL_core : ∀ (ts : List (Core E)), Tree.secretVarsL ts = .ok (coreVarsL ts)
  | [] => rfl
  | t :: ts => by
    simp only [Tree.secretVarsL, secretVars_core t, secretVarsL_core ts, bind_ok, secretsL]
end

mutual
def coreBases : Core E → List (Pt E)
  | .leaf s => s.bases
  | .and _ subs => coreBasesL subs
  | .or _ subs => coreBasesL subs
def coreBasesL : List (Core E) → List (Pt E)
  | [] => []
  | t :: ts => coreBases t ++ coreBasesL ts
end

mutual
theorem bases_core : ∀ (t : Core E), Tree.bases t = .ok (coreBases t)
  | .leaf s => by simp only [Tree.bases, StmtOps.bases, coreBases]
  | .and _ subs => by simp only [Tree.bases, coreBases, basesL_core subs]
  | .or _ subs => by simp only [Tree.bases, coreBases, basesL_core subs]
theorem basesL_core : ∀ (ts : List (Core E)), Tree.basesL ts = .ok (coreBasesL ts)
  | [] => rfl
  | t :: ts => by
    simp only [Tree.basesL, bases_core t, basesL_core ts, bind_ok, coreBasesL]
end

mutual
theorem coreVars_length : ∀ (t t' : Core E), coreSkel t = coreSkel t' →
    (coreVars t).length = (coreVars t').length
  | .leaf s, t', h => by
    cases t' with
    | leaf s' => simp only [shape, Skel.rep.injEq] at h; exact h.2.2
    | and _ _ => simp [shape] at h
    | or _ _ => simp [shape] at h
  | .and _ subs, t', h => by
    cases t' with
    | leaf s' => simp [shape] at h
    | and _ subs' =>
      simp only [shape, Skel.all.injEq] at h
      exact coreVarsL_length subs subs' h
    | or _ _ => simp [shape] at h
  | .or _ subs, t', h => by
    cases t' with
    | leaf s' => simp [shape] at h
    | or _ subs' =>
      simp only [shape, Skel.any.injEq] at h
      exact coreVarsL_length subs subs' h
    | and _ _ => simp [shape] at h
theorem coreVarsL_length : ∀ (ts ts' : List (Core E)), coreSkelL ts = coreSkelL ts' →
    (coreVarsL ts).length = (coreVarsL ts').length
  | [], ts', h => by
    cases ts' with
    | nil => rfl
    | cons a as => simp [shapeL] at h
  | t :: ts, ts', h => by
    cases ts' with
    | nil => simp [shapeL] at h
    | cons t' ts' =>
      simp only [shapeL, List.cons.injEq] at h
      simp only [secretsL, List.length_append, coreVars_length t t' h.1,
        coreVarsL_length ts ts' h.2]
end

/-! ### Recomputation depends on the skeleton only -/

mutual
theorem recompute_skel : ∀ (t t' : Core E) (c : Int) (r : Val E), coreSkel t = coreSkel t' →
    Tree.recompute t c r = Tree.recompute t' c r
  | .leaf s, t', c, r, h => by
    cases t' with
    | leaf s' =>
      simp only [shape, Skel.rep.injEq] at h
      simp only [Tree.recompute, StmtOps.recompute, DLRep.recompute, h.1, h.2.1]
    | and _ _ => simp [shape] at h
    | or _ _ => simp [shape] at h
  | .and _ subs, t', c, r, h => by
    cases t' with
    | leaf s' => simp [shape] at h
    | and _ subs' =>
      simp only [shape, Skel.all.injEq] at h
      simp only [Tree.recompute, recomputeAnd_skel subs subs' 0 c r h]
    | or _ _ => simp [shape] at h
  | .or _ subs, t', c, r, h => by
    cases t' with
    | leaf s' => simp [shape] at h
    | or _ subs' =>
      simp only [shape, Skel.any.injEq] at h
      simp only [Tree.recompute, recomputeOr_skel subs subs' 0 _ _ h]
    | and _ _ => simp [shape] at h
theorem recomputeAnd_skel : ∀ (ts ts' : List (Core E)) (i : Nat) (c : Int) (r : Val E),
    coreSkelL ts = coreSkelL ts' → Tree.recomputeAnd ts i c r = Tree.recomputeAnd ts' i c r
  | [], ts', i, c, r, h => by
    cases ts' with
    | nil => rfl
    | cons a as => simp [shapeL] at h
  | t :: ts, ts', i, c, r, h => by
    cases ts' with
    | nil => simp [shapeL] at h
    | cons t' ts' =>
      simp only [shapeL, List.cons.injEq] at h
      simp only [Tree.recomputeAnd, recompute_skel t t' _ _ h.1, recomputeAnd_skel ts ts' _ _ _ h.2]
theorem recomputeOr_skel : ∀ (ts ts' : List (Core E)) (i : Nat) (c : List Int) (r : Val E),
    coreSkelL ts = coreSkelL ts' → Tree.recomputeOr ts i c r = Tree.recomputeOr ts' i c r
  | [], ts', i, c, r, h => by
    cases ts' with
    | nil => rfl
    | cons a as => simp [shapeL] at h
  | t :: ts, ts', i, c, r, h => by
    cases ts' with
    | nil => simp [shapeL] at h
    | cons t' ts' =>
      simp only [shapeL, List.cons.injEq] at h
      simp only [Tree.recomputeOr, recompute_skel t t' _ _ h.1, recomputeOr_skel ts ts' _ _ _ h.2]
end

/-! ### Consistency depends on the skeleton and the pattern of secrets only -/

/-- Corresponding secrets are equal on one side iff they are on the other. -/
def Corr (σ σ' : Store) (Z : List (Sec × Sec)) : Prop :=
  ∀ p ∈ Z, ∀ q ∈ Z, σ.key p.1 = σ.key q.1 ↔ σ'.key p.2 = σ'.key q.2

/-- Corresponding secrets have the same entries. -/
def DRel (σ σ' : Store) (Z : List (Sec × Sec)) (d d' : Dict (Val E)) : Prop :=
  ∀ p ∈ Z, Dict.get? σ d p.1 = Dict.get? σ' d' p.2

/-- Same exception, or same verdict and related dictionaries. -/
def RRel (σ σ' : Store) (Z : List (Sec × Sec)) (x y : Except Err (Bool × Dict (Val E))) : Prop :=
  (∃ e, x = .error e ∧ y = .error e) ∨
  ∃ b d d', x = .ok (b, d) ∧ y = .ok (b, d') ∧ DRel σ σ' Z d d'

theorem DRel.set {σ σ' : Store} {Z : List (Sec × Sec)} {d d' : Dict (Val E)} (hZ : Corr σ σ' Z)
    (h : DRel σ σ' Z d d') {p : Sec × Sec} (hp : p ∈ Z) (v : Val E) :
    DRel σ σ' Z (Dict.set σ d p.1 v) (Dict.set σ' d' p.2 v) := by
  intro q hq
  rw [Dict.get?_set, Dict.get?_set, h q hq]
  by_cases hk : σ.key p.1 = σ.key q.1
  · rw [if_pos hk, if_pos ((hZ p hp q hq).mp hk)]
  · rw [if_neg hk, if_neg (fun e => hk ((hZ p hp q hq).mpr e))]

theorem consistencyGo_transfer {σ σ' : Store} {Z : List (Sec × Sec)} (hZ : Corr σ σ' Z)
    (r : Val E) : ∀ (vs vs' : List Sec) (i : Nat) (d d' : Dict (Val E)),
    vs.length = vs'.length → (∀ p ∈ vs.zip vs', p ∈ Z) → DRel σ σ' Z d d' →
    RRel σ σ' Z (DLRep.consistencyGo σ r vs i d) (DLRep.consistencyGo σ' r vs' i d')
  | [], vs', i, d, d', hl, hz, hd => by
    cases vs' with
    | nil => exact .inr ⟨true, d, d', rfl, rfl, hd⟩
    | cons _ _ => simp at hl
  | v :: vs, vs', i, d, d', hl, hz, hd => by
    cases vs' with
    | nil => simp at hl
    | cons v' vs' =>
      simp only [List.length_cons, Nat.succ.injEq] at hl
      have hp : (v, v') ∈ Z := hz _ (by simp)
      have hz' : ∀ p ∈ vs.zip vs', p ∈ Z := fun p h => hz p (by simp [h])
      simp only [DLRep.consistencyGo]
      rw [← hd (v, v') hp]
      cases hg : Dict.get? σ d v with
      | none =>
        simp only []
        cases hr : r.index i with
        | error e => exact .inl ⟨e, rfl, rfl⟩
        | ok x =>
          simp only [bind_ok]
          exact consistencyGo_transfer hZ r vs vs' (i + 1) _ _ hl hz' (DRel.set hZ hd hp x)
      | some w =>
        simp only []
        cases hr : r.index i with
        | error e => exact .inl ⟨e, rfl, rfl⟩
        | ok x =>
          simp only [bind_ok]
          by_cases hx : x = w
          · simp only [hx, ne_eq, not_true_eq_false, if_false]
            exact consistencyGo_transfer hZ r vs vs' (i + 1) d d' hl hz' hd
          · simp only [ne_eq, hx, not_false_eq_true, if_true]
            exact .inr ⟨false, d, d', rfl, rfl, hd⟩

theorem zip_append_mem {Z : List (Sec × Sec)} {a b a' b' : List Sec} (hl : a.length = a'.length)
    (h : ∀ p ∈ (a ++ b).zip (a' ++ b'), p ∈ Z) :
    (∀ p ∈ a.zip a', p ∈ Z) ∧ (∀ p ∈ b.zip b', p ∈ Z) := by
  rw [List.zip_append hl] at h
  exact ⟨fun p hp => h p (by simp [hp]), fun p hp => h p (by simp [hp])⟩

mutual
theorem consistency_transfer {σ σ' : Store} {Z : List (Sec × Sec)} (hZ : Corr σ σ' Z) :
    ∀ (t t' : Core E) (r : Val E) (d d' : Dict (Val E)), coreSkel t = coreSkel t' →
    (∀ p ∈ (coreVars t).zip (coreVars t'), p ∈ Z) → DRel σ σ' Z d d' →
    RRel σ σ' Z (Tree.consistency σ t r d) (Tree.consistency σ' t' r d')
  | .leaf s, t', r, d, d', h, hz, hd => by
    cases t' with
    | leaf s' =>
      simp only [shape, Skel.rep.injEq] at h
      simp only [Tree.consistency, StmtOps.consistency]
      exact consistencyGo_transfer hZ r _ _ 0 d d' h.2.2 hz hd
    | and _ _ => simp [shape] at h
    | or _ _ => simp [shape] at h
  | .and _ subs, t', r, d, d', h, hz, hd => by
    cases t' with
    | leaf s' => simp [shape] at h
    | and _ subs' =>
      simp only [shape, Skel.all.injEq] at h
      simp only [Tree.consistency]
      exact consistencyAnd_transfer hZ subs subs' 0 r d d' h hz hd
    | or _ _ => simp [shape] at h
  | .or _ subs, t', r, d, d', h, hz, hd => by
    cases t' with
    | leaf s' => simp [shape] at h
    | or _ subs' =>
      simp only [shape, Skel.any.injEq] at h
      simp only [Tree.consistency]
      rw [← consistencyOr_transfer hZ subs subs' 0 r h hz]
      cases Tree.consistencyOr σ subs 0 r with
      | error e => exact .inl ⟨e, rfl, rfl⟩
      | ok b => exact .inr ⟨b, d, d', rfl, rfl, hd⟩
    | and _ _ => simp [shape] at h
theorem consistencyAnd_transfer {σ σ' : Store} {Z : List (Sec × Sec)} (hZ : Corr σ σ' Z) :
    ∀ (ts ts' : List (Core E)) (i : Nat) (r : Val E) (d d' : Dict (Val E)),
    coreSkelL ts = coreSkelL ts' →
    (∀ p ∈ (coreVarsL ts).zip (coreVarsL ts'), p ∈ Z) → DRel σ σ' Z d d' →
    RRel σ σ' Z (Tree.consistencyAnd σ ts i r d) (Tree.consistencyAnd σ' ts' i r d')
  | [], ts', i, r, d, d', h, hz, hd => by
    cases ts' with
    | nil => exact .inr ⟨true, d, d', rfl, rfl, hd⟩
    | cons a as => simp [shapeL] at h
  | t :: ts, ts', i, r, d, d', h, hz, hd => by
    cases ts' with
    | nil => simp [shapeL] at h
    | cons t' ts' =>
      simp only [shapeL, List.cons.injEq] at h
      simp only [secretsL] at hz
      obtain ⟨hz1, hz2⟩ := zip_append_mem (coreVars_length t t' h.1) hz
      simp only [Tree.consistencyAnd]
      cases r.index i with
      | error e => exact .inl ⟨e, rfl, rfl⟩
      | ok ri =>
        simp only [bind_ok]
        rcases consistency_transfer hZ t t' ri d d' h.1 hz1 hd with
          ⟨e, h1, h2⟩ | ⟨b, d1, d1', h1, h2, hd1⟩
        · rw [h1, h2]; exact .inl ⟨e, rfl, rfl⟩
        · rw [h1, h2]
          simp only [bind_ok]
          cases b with
          | false => exact .inr ⟨false, d1, d1', rfl, rfl, hd1⟩
          | true => exact consistencyAnd_transfer hZ ts ts' (i + 1) r d1 d1' h.2 hz2 hd1
theorem consistencyOr_transfer {σ σ' : Store} {Z : List (Sec × Sec)} (hZ : Corr σ σ' Z) :
    ∀ (ts ts' : List (Core E)) (i : Nat) (r : Val E),
    coreSkelL ts = coreSkelL ts' →
    (∀ p ∈ (coreVarsL ts).zip (coreVarsL ts'), p ∈ Z) →
    Tree.consistencyOr σ ts i r = Tree.consistencyOr σ' ts' i r
  | [], ts', i, r, h, hz => by
    cases ts' with
    | nil => rfl
    | cons a as => simp [shapeL] at h
  | t :: ts, ts', i, r, h, hz => by
    cases ts' with
    | nil => simp [shapeL] at h
    | cons t' ts' =>
      simp only [shapeL, List.cons.injEq] at h
      simp only [secretsL] at hz
      obtain ⟨hz1, hz2⟩ := zip_append_mem (coreVars_length t t' h.1) hz
      simp only [Tree.consistencyOr]
      congr 1; funext r1
      congr 1; funext ri
      rcases consistency_transfer hZ t t' ri [] [] h.1 hz1 (fun p _ => rfl) with
          ⟨e, h1, h2⟩ | ⟨b, d1, d1', h1, h2, hd1⟩
      · rw [h1, h2]; rfl
      · rw [h1, h2]
        simp only [bind_ok]
        rw [consistencyOr_transfer hZ ts ts' (i + 1) r h.2 hz2]
end

theorem corr_of_pattern {σ σ' : Store} {vs vs' : List Sec}
    (h : SamePattern (vs.map σ.key) (vs'.map σ'.key)) : Corr σ σ' (vs.zip vs') := by
  intro p hp q hq
  obtain ⟨i, hi⟩ := List.mem_iff_getElem?.mp hp
  obtain ⟨j, hj⟩ := List.mem_iff_getElem?.mp hq
  rw [List.getElem?_zip_eq_some] at hi hj
  exact h.2 i j _ _ _ _ (by simp [hi.1]) (by simp [hj.1]) (by simp [hi.2]) (by simp [hj.2])

/-- Verdict and exceptions of the consistency check transfer. -/
theorem consistency_pattern {σ σ' : Store} {t t' : Core E} (hs : coreSkel t = coreSkel t')
    (h : SamePattern ((coreVars t).map σ.key) ((coreVars t').map σ'.key)) (r : Val E) :
    (Tree.consistency σ t r []).map Prod.fst = (Tree.consistency σ' t' r []).map Prod.fst := by
  rcases consistency_transfer (corr_of_pattern h) t t' r [] [] hs (fun p hp => hp)
    (fun p _ => rfl) with ⟨e, h1, h2⟩ | ⟨b, d1, d1', h1, h2, _⟩ <;> rw [h1, h2] <;> rfl

/-! ### Statement identifiers -/

theorem idsOf_eq {σ : Store} {m : IdMap} : ∀ {vs : List Sec} {is : List Nat},
    DLRep.idsOf σ m vs = .ok is ↔ vs.map (fun s => m.lookup (σ.name s)) = is.map some
  | [], is => by
    simp only [DLRep.idsOf, Except.ok.injEq, List.map_nil]
    constructor
    · rintro rfl; rfl
    · intro h; cases is with
      | nil => rfl
      | cons => simp at h
  | v :: vs, is => by
    simp only [DLRep.idsOf, List.map_cons]
    constructor
    · intro h
      obtain ⟨i, hi, h⟩ := bind_ok_iff.mp h
      obtain ⟨js, hjs, h⟩ := bind_ok_iff.mp h
      injection h with h; subst h
      have : m.lookup (σ.name v) = some i := by
        unfold IdMap.get at hi
        cases hl : List.lookup (σ.name v) m with
        | none => simp [hl] at hi
        | some x => simp [hl] at hi; simp [hi]
      simp [this, idsOf_eq.mp hjs]
    · intro h
      cases is with
      | nil => simp at h
      | cons i is =>
        simp only [List.map_cons, List.cons.injEq] at h
        have hi : IdMap.get m (σ.name v) = .ok i := by unfold IdMap.get; rw [h.1]
        rw [hi, idsOf_eq.mpr h.2]; rfl

theorem idsOf_assign {σ : Store} (vs : List Sec) :
    ∃ is, DLRep.idsOf σ (assignSecretIds (vs.map σ.name)) vs = .ok is := by
  have key : ∀ ws : List Sec, (∀ s ∈ ws, s ∈ vs) →
      ∃ is, DLRep.idsOf σ (assignSecretIds (vs.map σ.name)) ws = .ok is := by
    intro ws
    induction ws with
    | nil => intro _; exact ⟨[], rfl⟩
    | cons w ws ih =>
      intro h
      obtain ⟨is, his⟩ := ih (fun s hs => h s (by simp [hs]))
      obtain ⟨i, hi⟩ := assign_lookup_mem (List.mem_map_of_mem (f := σ.name) (h w (by simp)))
      refine ⟨i :: is, ?_⟩
      simp only [DLRep.idsOf, IdMap.get, hi, his, bind_ok]
  exact key vs (fun _ h => h)

/-- Identifier lists are equal iff the names show the same pattern. -/
theorem ids_eq_iff_pattern {σ σ' : Store} {vs vs' : List Sec} {is is' : List Nat}
    (h : DLRep.idsOf σ (assignSecretIds (vs.map σ.name)) vs = .ok is)
    (h' : DLRep.idsOf σ' (assignSecretIds (vs'.map σ'.name)) vs' = .ok is') :
    is = is' ↔ SamePattern (vs.map σ.name) (vs'.map σ'.name) := by
  rw [idsOf_eq] at h h'
  have hget : ∀ (i : Nat) (s : Sec), vs[i]? = some s →
      (assignSecretIds (vs.map σ.name)).lookup (σ.name s) = is[i]? := by
    intro i s hs
    have := congrArg (fun l => l[i]?) h
    simp only [List.getElem?_map, hs, Option.map_some] at this
    cases hi : is[i]? with
    | none => rw [hi] at this; cases this
    | some x => rw [hi] at this; simpa using this
  have hget' : ∀ (i : Nat) (s : Sec), vs'[i]? = some s →
      (assignSecretIds (vs'.map σ'.name)).lookup (σ'.name s) = is'[i]? := by
    intro i s hs
    have := congrArg (fun l => l[i]?) h'
    simp only [List.getElem?_map, hs, Option.map_some] at this
    cases hi : is'[i]? with
    | none => rw [hi] at this; cases this
    | some x => rw [hi] at this; simpa using this
  have hlen : vs.length = is.length := by simpa using congrArg List.length h
  have hlen' : vs'.length = is'.length := by simpa using congrArg List.length h'
  constructor
  · intro e
    subst e
    refine ⟨by simp [hlen, hlen'], ?_⟩
    intro i j a b a' b' ha hb ha' hb'
    rw [List.getElem?_map, Option.map_eq_some_iff] at ha hb ha' hb'
    obtain ⟨s, hs, rfl⟩ := ha
    obtain ⟨u, hu, rfl⟩ := hb
    obtain ⟨s', hs', rfl⟩ := ha'
    obtain ⟨u', hu', rfl⟩ := hb'
    have e1 := hget i s hs
    have e2 := hget j u hu
    have e3 := hget' i s' hs'
    have e4 := hget' j u' hu'
    have hi : i < is.length := by
      have := (List.getElem?_eq_some_iff.mp hs).1; omega
    have hj : j < is.length := by
      have := (List.getElem?_eq_some_iff.mp hu).1; omega
    rw [List.getElem?_eq_getElem hi] at e1 e3
    rw [List.getElem?_eq_getElem hj] at e2 e4
    constructor
    · intro e; rw [e, e2] at e1; rw [← e1] at e3; exact assign_lookup_inj e3 e4
    · intro e; rw [e, e4] at e3; rw [← e3] at e1; exact assign_lookup_inj e1 e2
  · intro hp
    have hl : vs.length = vs'.length := by simpa using hp.1
    apply List.ext_getElem?
    intro i
    cases hs : vs[i]? with
    | none =>
      rw [List.getElem?_eq_none_iff] at hs
      rw [List.getElem?_eq_none (by omega), List.getElem?_eq_none (by omega)]
    | some s =>
      have hi := (List.getElem?_eq_some_iff.mp hs).1
      have hs' : vs'[i]? = some (vs'[i]'(by omega)) := List.getElem?_eq_getElem (by omega)
      have e1 := hget i s hs
      have e2 := hget' i _ hs'
      rw [List.getElem?_eq_getElem (by omega : i < is.length)] at e1 ⊢
      have := assign_samePattern hp (i := i) (n := σ.name s) (n' := σ'.name vs'[i])
        (by simp [hs]) (by rw [List.getElem?_map, hs']; rfl) e1
      rw [← e2, this]

namespace Tree
variable {L : Type} [StmtOps E L] [StmtView E L]

theorem proofId_ok {σ : Store} {t : Tree L} {id : PId E} (h : proofId σ t = .ok id) :
    ∃ k vs is, skel t = some k ∧ secretVars t = .ok vs ∧
      DLRep.idsOf σ (assignSecretIds (vs.map σ.name)) vs = .ok is ∧
      id.skel = k ∧ id.ids = is ∧ id.WF := by
  unfold proofId at h
  obtain ⟨vs, hvs, h⟩ := bind_ok_iff.mp h
  obtain ⟨k, vs', is, h1, h2, h3, h4, h5, h6⟩ := proofIdWith_ok σ _ t id h
  rw [hvs] at h2; injection h2 with h2; subst h2
  exact ⟨k, vs, is, h1, hvs, h3, h4, h5, h6⟩

theorem proofId_isOk {σ : Store} {t : Tree L} {k : Skel E} (h : skel t = some k) :
    ∃ id vs, proofId σ t = .ok id ∧ secretVars t = .ok vs := by
  obtain ⟨vs, hvs⟩ := vars_some t (by rw [core_skel, h]; rfl)
  obtain ⟨is, his⟩ := idsOf_assign (σ := σ) vs
  obtain ⟨id, hid⟩ := proofIdWith_some σ _ t k vs is h hvs his
  exact ⟨id, vs, by simp only [proofId, hvs, bind_ok]; exact hid, hvs⟩

/-- The statement identifier is a complete invariant: skeleton plus pattern of names. -/
theorem proofId_eq_iff {L' : Type} [StmtOps E L'] [StmtView E L'] {σ σ' : Store} {t : Tree L}
    {t' : Tree L'} {k k' : Skel E} {vs vs' : List Sec}
    (hk : skel t = some k) (hk' : skel t' = some k')
    (hvs : secretVars t = .ok vs) (hvs' : secretVars t' = .ok vs') :
    (proofId σ t = proofId σ' t') ↔
      k = k' ∧ SamePattern (vs.map σ.name) (vs'.map σ'.name) := by
  obtain ⟨id, vs1, hid, h1⟩ := proofId_isOk (σ := σ) hk
  obtain ⟨id', vs1', hid', h1'⟩ := proofId_isOk (σ := σ') hk'
  obtain ⟨k2, vs2, is, hk2, hvs2, his, hsk, hi, hwf⟩ := proofId_ok hid
  obtain ⟨k2', vs2', is', hk2', hvs2', his', hsk', hi', hwf'⟩ := proofId_ok hid'
  rw [hk] at hk2; injection hk2 with hk2; subst hk2
  rw [hk'] at hk2'; injection hk2' with hk2'; subst hk2'
  rw [hvs] at hvs2; injection hvs2 with hvs2; subst hvs2
  rw [hvs'] at hvs2'; injection hvs2' with hvs2'; subst hvs2'
  rw [hid, hid', Except.ok.injEq, ← ids_eq_iff_pattern his his']
  constructor
  · rintro rfl; exact ⟨hsk.symm.trans hsk', hi.symm.trans hi'⟩
  · rintro ⟨e1, e2⟩
    exact PId.ext_of id id' hwf hwf' (by rw [hsk, hsk', e1]) (by rw [hi, hi', e2])

end Tree

/-! ### Core statements: views are total -/

mutual
theorem core_core : ∀ (t : Core E), ∃ c, Tree.core t = some c ∧ coreSkel c = coreSkel t ∧
    coreVars c = coreVars t
  | .leaf s => ⟨.leaf s.norm, rfl, by simp [shape, DLRep.norm], by simp [secrets, DLRep.norm]⟩
  | .and _ subs => by
    obtain ⟨cs, h1, h2, h3⟩ := coreL_core subs
    exact ⟨.and false cs, by simp [Tree.core, h1], by simp [shape, h2], by simp [secrets, h3]⟩
  | .or _ subs => by
    obtain ⟨cs, h1, h2, h3⟩ := coreL_core subs
    exact ⟨.or false cs, by simp [Tree.core, h1], by simp [shape, h2], by simp [secrets, h3]⟩
theorem coreL_core : ∀ (ts : List (Core E)), ∃ cs, Tree.coreL ts = some cs ∧
    coreSkelL cs = coreSkelL ts ∧ coreVarsL cs = coreVarsL ts
  | [] => ⟨[], rfl, rfl, rfl⟩
  | t :: ts => by
    obtain ⟨c, h1, h2, h3⟩ := core_core t
    obtain ⟨cs, h1', h2', h3'⟩ := coreL_core ts
    exact ⟨c :: cs, Tree.coreL_cons.mpr ⟨c, cs, h1, h1', rfl⟩, by simp [shapeL, h2, h2'],
      by simp [secretsL, h3, h3']⟩
end

mutual
theorem skel_core : ∀ (t : Core E), Tree.skel t = some (coreSkel t)
  | .leaf s => rfl
  | .and _ subs => by simp [Tree.skel, shape, skelL_core subs]
  | .or _ subs => by simp [Tree.skel, shape, skelL_core subs]
theorem skelL_core : ∀ (ts : List (Core E)), Tree.skelL ts = some (coreSkelL ts)
  | [] => rfl
  | t :: ts => by simp [Tree.skelL, shapeL, skel_core t, skelL_core ts]
end

mutual
theorem ready_core : ∀ (t : Core E), Tree.Ready t
  | .leaf s => trivial
  | .and _ subs => by simp only [Tree.Ready]; exact readyL_core subs
  | .or _ subs => by simp only [Tree.Ready]; exact readyL_core subs
theorem readyL_core : ∀ (ts : List (Core E)), Tree.ReadyL ts
  | [] => trivial
  | t :: ts => ⟨ready_core t, readyL_core ts⟩
end

mutual
theorem fresh_core : ∀ (t : Core E), Tree.freshVerifier t = t
  | .leaf s => rfl
  | .and _ subs => by simp only [Tree.freshVerifier, freshL_core subs]
  | .or _ subs => by simp only [Tree.freshVerifier, freshL_core subs]
theorem freshL_core : ∀ (ts : List (Core E)), Tree.freshVerifierL ts = ts
  | [] => rfl
  | t :: ts => by simp only [Tree.freshVerifierL, fresh_core t, freshL_core ts]
end

mutual
theorem validate_core : ∀ (t : Core E), Tree.fullValidate t = .ok ()
  | .leaf s => rfl
  | .and _ subs => by simp only [Tree.fullValidate, validateL_core subs]
  | .or _ subs => by simp only [Tree.fullValidate, validateL_core subs]
theorem validateL_core : ∀ (ts : List (Core E)), Tree.fullValidateL ts = .ok ()
  | [] => rfl
  | t :: ts => by simp only [Tree.fullValidateL, validate_core t, validateL_core ts, bind_ok]
end

/-- Both raise the same exception, or both leave their statement unchanged. -/
def PRel (t t' : Core E) (x y : Except Err (Core E)) : Prop :=
  (∃ e, x = .error e ∧ y = .error e) ∨ (x = .ok t ∧ y = .ok t')

def PRelL (ts ts' : List (Core E)) (x y : Except Err (List (Core E))) : Prop :=
  (∃ e, x = .error e ∧ y = .error e) ∨ (x = .ok ts ∧ y = .ok ts')

mutual
theorem process_core (σ σ' : Store) : ∀ (t t' : Core E) (v : Val E), coreSkel t = coreSkel t' →
    PRel t t' (Tree.process σ t v) (Tree.process σ' t' v)
  | .leaf s, t', v, h => by
    cases t' with
    | leaf s' => exact .inr ⟨rfl, rfl⟩
    | and _ _ => simp [shape] at h
    | or _ _ => simp [shape] at h
  | .and _ subs, t', v, h => by
    cases t' with
    | leaf s' => simp [shape] at h
    | and _ subs' =>
      simp only [shape, Skel.all.injEq] at h
      simp only [Tree.process]
      split
      · exact .inr ⟨rfl, rfl⟩
      · rcases processL_core σ σ' subs subs' 0 v h with ⟨e, h1, h2⟩ | ⟨h1, h2⟩
        · rw [h1, h2]; exact .inl ⟨e, rfl, rfl⟩
        · rw [h1, h2]; exact .inr ⟨rfl, rfl⟩
    | or _ _ => simp [shape] at h
  | .or _ subs, t', v, h => by
    cases t' with
    | leaf s' => simp [shape] at h
    | or _ subs' =>
      simp only [shape, Skel.any.injEq] at h
      simp only [Tree.process]
      split
      · exact .inr ⟨rfl, rfl⟩
      · rcases processL_core σ σ' subs subs' 0 v h with ⟨e, h1, h2⟩ | ⟨h1, h2⟩
        · rw [h1, h2]; exact .inl ⟨e, rfl, rfl⟩
        · rw [h1, h2]; exact .inr ⟨rfl, rfl⟩
    | and _ _ => simp [shape] at h
theorem processL_core (σ σ' : Store) : ∀ (ts ts' : List (Core E)) (i : Nat) (v : Val E),
    coreSkelL ts = coreSkelL ts' →
    PRelL ts ts' (Tree.processL σ ts i v) (Tree.processL σ' ts' i v)
  | [], ts', i, v, h => by
    cases ts' with
    | nil => exact .inr ⟨rfl, rfl⟩
    | cons a as => simp [shapeL] at h
  | t :: ts, ts', i, v, h => by
    cases ts' with
    | nil => simp [shapeL] at h
    | cons t' ts' =>
      simp only [shapeL, List.cons.injEq] at h
      simp only [Tree.processL]
      cases v.index i with
      | error e => exact .inl ⟨e, rfl, rfl⟩
      | ok vi =>
        simp only [bind_ok]
        rcases process_core σ σ' t t' vi h.1 with ⟨e, h1, h2⟩ | ⟨h1, h2⟩
        · rw [h1, h2]; exact .inl ⟨e, rfl, rfl⟩
        · rw [h1, h2]
          simp only [bind_ok]
          rcases processL_core σ σ' ts ts' (i + 1) v h.2 with ⟨e, h1, h2⟩ | ⟨h1, h2⟩
          · rw [h1, h2]; exact .inl ⟨e, rfl, rfl⟩
          · rw [h1, h2]; exact .inr ⟨rfl, rfl⟩
end

theorem digest_core (σ σ' : Store) {t t' : Core E} (v : Val E) (h : coreSkel t = coreSkel t') :
    PRel t t' (digestPrecommitment σ t v) (digestPrecommitment σ' t' v) := by
  unfold digestPrecommitment
  split
  · exact .inr ⟨rfl, rfl⟩
  · exact process_core σ σ' t t' v h

/-- `verify` gives the same answer (or exception) on two statements with the same skeleton, the same
pattern of names and the same pattern of dictionary keys. -/
theorem verify_core_transfer (env : Env E) {σ σ' : Store} {t t' : Core E}
    (hs : coreSkel t = coreSkel t')
    (hn : SamePattern ((coreVars t).map σ.name) ((coreVars t').map σ'.name))
    (hk : SamePattern ((coreVars t).map σ.key) ((coreVars t').map σ'.key))
    (nizk : NIZK E) (msg : String) :
    verify env σ t nizk msg = verify env σ' t' nizk msg := by
  unfold verify
  rw [fresh_core, fresh_core]
  rcases digest_core σ σ' nizk.precommitment hs with ⟨e, h1, h2⟩ | ⟨h1, h2⟩
  · rw [h1, h2]; rfl
  · rw [h1, h2]
    simp only [bind_ok]
    have hid : Tree.proofId σ t = Tree.proofId σ' t' :=
      (Tree.proofId_eq_iff (skel_core t) (skel_core t') (secretVars_core t) (secretVars_core t')).mpr
        ⟨hs, hn⟩
    have hc : checkStatement env σ t nizk.stmtHash = checkStatement env σ' t' nizk.stmtHash := by
      unfold checkStatement; rw [hid]
    have hp : preVerification σ t nizk.responses = preVerification σ' t' nizk.responses := by
      unfold preVerification
      rw [validate_core, validate_core]
      simp only [bind_ok]
      have := consistency_pattern hs hk nizk.responses
      revert this
      cases Tree.consistency σ t nizk.responses [] <;>
        cases Tree.consistency σ' t' nizk.responses [] <;>
        simp only [Except.map, Except.error.injEq, Except.ok.injEq, reduceCtorEq, false_implies]
      · rintro rfl; rfl
      · intro h; simp only [bind_ok, h]
    rw [hc, hp, funext (fun c => funext (fun r => recompute_skel t t' c r hs))]

end Zksk
