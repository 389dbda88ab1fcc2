import Verif.Lemmas.ObjectsKeep

/-! Failed attempts to prove: what they leave in the secrets and in the marks. -/

set_option linter.unusedSectionVars false

namespace Zksk.Share

open Spec

variable {E : Type} [AddCommGroup E] [DecidableEq E]

/-! ### Secrets -/

/-- Only values of secrets in the dictionary may have changed. -/
def Stored (d : Dict Int) (σ σ' : Store) : Prop :=
  σ'.name = σ.name ∧ ∀ x, (∀ v, (x, v) ∉ d) → σ'.value x = σ.value x

theorem Stored.refl (d : Dict Int) (σ : Store) : Stored d σ σ := ⟨rfl, fun _ _ => rfl⟩

theorem Stored.trans {d : Dict Int} {σ σ' σ'' : Store} (h1 : Stored d σ σ') (h2 : Stored d σ' σ'') : Stored d σ σ'' :=
  ⟨h2.1.trans h1.1, fun x hx => (h2.2 x hx).trans (h1.2 x hx)⟩

theorem stored_update : ∀ (d d' : Dict Int) (σ : Store), (∀ e ∈ d', e ∈ d) → Stored d σ (updateSecretValues σ d')
  | d, [], σ, _ => Stored.refl d σ
  | d, (y, v) :: d', σ, hm => by
    have h1 : Stored d σ (σ.setValue y v) := by
      refine ⟨rfl, fun x hx => ?_⟩
      have : x ≠ y := fun e => hx v (e ▸ hm _ (by simp))
      simp [Store.setValue, this]
    exact h1.trans (stored_update d d' _ fun e he => hm e (by simp [he]))

theorem stored_bind {α β : Type} {d : Dict Int} {x : KM E α} {f : α → KM E β} {s : Objects E × World}
    (hx : Stored d s.2.store (x s).2.2.store)
    (hf : ∀ a, (x s).1 = .ok a → Stored d (x s).2.2.store (f a (x s).2).2.2.store) :
    Stored d s.2.store ((x >>= f) s).2.2.store := by
  rw [km_bind]
  rcases hr : x s with ⟨r | a, s'⟩
  · simpa only [hr] using hx
  · have := hf a (by rw [hr])
    rw [hr] at this hx
    exact hx.trans this

theorem stored_other {α : Type} {d : Dict Int} {x : PM α} {s : Objects E × World}
    (hx : ∀ w a w', x w = .ok (a, w') → Stored d w.store w'.store) : Stored d s.2.store ((KM.other x : KM E α) s).2.2.store := by
  unfold KM.other
  cases he : x s.2 with
  | error e => exact Stored.refl _ _
  | ok y => exact hx s.2 y.1 y.2 he

theorem stored_of_eq {d : Dict Int} {σ σ' : Store} (h : σ' = σ) : Stored d σ σ' := h ▸ Stored.refl d σ

theorem stored_getStore {d : Dict Int} (s : Objects E × World) : Stored d s.2.store ((KM.other getStore : KM E Store) s).2.2.store :=
  Stored.refl _ _

theorem stored_setStore {d : Dict Int} (σ : Store) (s : Objects E × World) (hs : s.2.store = σ) :
    Stored d s.2.store ((KM.other (setStore (updateSecretValues σ d)) : KM E Unit) s).2.2.store := by
  subst hs
  exact stored_update d d _ fun _ h => h

theorem stored_all {d : Dict Int} {get : Nat → KM E (Option (HProver E))} (hg : ∀ r s, Stored d s.2.store (get r s).2.2.store) :
    ∀ (rs : List Nat) (s : Objects E × World), Stored d s.2.store (Objects.tryAll get rs s).2.2.store
  | [], s => Stored.refl _ _
  | r :: rs, s => stored_bind (hg r s) fun a _ => stored_bind (stored_all hg rs _) fun _ _ => Stored.refl _ _

theorem stored_any {d : Dict Int} {get : Nat → KM E (Option (HProver E))} (hg : ∀ r s, Stored d s.2.store (get r s).2.2.store)
    (rs : List Nat) : ∀ (fuel : Nat) (possible : List Nat) (s : Objects E × World),
      Stored d s.2.store (Objects.tryAny get rs fuel possible s).2.2.store
  | 0, possible, s => Stored.refl _ _
  | fuel + 1, possible, s => by
    simp only [Objects.tryAny]
    split
    · exact Stored.refl _ _
    · refine stored_bind (stored_other fun w a w' h => stored_of_eq (choice_store h)) fun i _ => ?_
      cases hi : rs[i]? with
      | none => exact Stored.refl _ _
      | some r =>
        refine stored_bind (hg r _) fun p _ => ?_
        cases p with
        | some p => exact Stored.refl _ _
        | none => exact stored_any hg rs fuel _ _

theorem stored_getProver (d : Dict Int) : ∀ (n r : Nat) (s : Objects E × World),
    Stored d s.2.store (Objects.tryGetProver d n r s).2.2.store
  | 0, r, s => Stored.refl _ _
  | n + 1, r, s => by
    simp only [Objects.tryGetProver]
    refine stored_bind (x := KM.objects) (Stored.refl _ _) fun h _ => ?_
    cases ho : h.objs[r]? with
    | none => exact Stored.refl _ _
    | some o =>
      cases o with
      | rep lhs bases vars v b =>
        simp only
        cases hv : h.dicts[v]? with
        | none => exact Stored.refl _ _
        | some vals0 =>
          refine stored_bind (stored_getStore _) fun σ _ => ?_
          refine stored_bind (x := KM.setObjects _) (Stored.refl _ _) fun _ _ => ?_
          split <;> exact Stored.refl _ _
      | all l b =>
        simp only
        cases hl : h.lists[l]? with
        | none => exact Stored.refl _ _
        | some rs =>
          refine stored_bind (stored_getStore _) fun σ hσ => ?_
          refine stored_bind (stored_setStore σ _ (Except.ok.inj hσ)) fun _ _ => ?_
          split
          · exact Stored.refl _ _
          · refine stored_bind (stored_all (stored_getProver d n) rs _) fun ps _ => ?_
            cases PTree.allSome ps <;> exact Stored.refl _ _
      | any l b =>
        simp only
        cases hl : h.lists[l]? with
        | none => exact Stored.refl _ _
        | some rs =>
          refine stored_bind (stored_getStore _) fun σ hσ => ?_
          refine stored_bind (stored_setStore σ _ (Except.ok.inj hσ)) fun _ _ => ?_
          split
          · exact Stored.refl _ _
          · refine stored_bind (stored_any (stored_getProver d n) rs _ _ _) fun x _ => ?_
            cases x with
            | none => exact Stored.refl _ _
            | some x =>
              obtain ⟨i, p⟩ := x
              refine stored_bind (x := KM.objects) (Stored.refl _ _) fun h1 _ => ?_
              cases PTree.allSome (rs.map (h1.read n)) with
              | none => exact Stored.refl _ _
              | some ts =>
                refine stored_bind (stored_other fun w a w' he => stored_of_eq (setup_store i ts 0 w w' a he rfl)) fun _ _ => ?_
                exact Stored.refl _ _

/-- A representation does not touch the secrets. -/
theorem rep_store {d : Dict Int} {r v : Nat} {lhs : Pt E} {bases : List (Pt E)} {vars : List Sec} {b : Bool}
    {s : Objects E × World} (ho : s.1.objs[r]? = some (.rep lhs bases vars v b)) :
    (Objects.tryProver r d s).2.2.store = s.2.store := by
  show (Objects.tryGetProver d s.1.objs.length r s).2.2.store = _
  cases s.1.objs.length with
  | zero => rfl
  | succ n =>
    simp only [Objects.tryGetProver, km_bind, KM.objects, ho]
    cases s.1.dicts[v]? with
    | none => rfl
    | some vals =>
      simp only [km_bind, KM.other, getStore, KM.setObjects]
      split <;> rfl

/-- A `prove` that raises leaves what `get_prover` leaves. -/
theorem prove_fails {env : Env E} {r : Nat} {d : Dict Int} {msg : String} {x : Err} {s s1 : Objects E × World}
    (he : Objects.tryProve env r d msg s = (.error x, s1)) : s1 = (Objects.tryProver r d s).2 := by
  unfold Objects.tryProve at he
  rw [km_bind] at he
  rcases hr : (Objects.tryProver r d : KM E _) s with ⟨e | p, s'⟩
  · rw [hr] at he
    exact (Prod.mk.inj he).2.symm
  · rw [hr] at he
    simp only at he ⊢
    cases p with
    | none => exact (Prod.mk.inj he).2.symm
    | some p =>
      simp only [km_bind, KM.objects] at he
      cases hs : p.see s'.1 with
      | none => rw [hs] at he; exact (Prod.mk.inj he).2.symm
      | some q =>
        simp only [hs, km_bind, KM.other] at he
        cases hn : PTree.getNizkProof env q msg s'.2 with
        | error e => rw [hn] at he; exact (Prod.mk.inj he).2.symm
        | ok y => rw [hn] at he; cases (Prod.mk.inj he).1

/-- Each failed attempt leaves what `get_prover` leaves. -/
theorem attempt_leaves {r : Nat} {ds : List (Dict Int)} {s s' : Objects E × World} (hf : FailedAttempts r ds s s')
    {P : Objects E × World → Prop} (hP : ∀ d ∈ ds, ∀ s, P s → P (Objects.tryProver r d s).2) (hs : P s) : P s' := by
  induction hf with
  | none s => exact hs
  | prove env d ds msg x s s1 s2 he _ ih =>
    refine ih (fun d' hd' => hP d' (by simp [hd'])) ?_
    rw [prove_fails he]
    exact hP d (by simp) s hs
  | raises d ds x s s1 s2 he _ ih =>
    refine ih (fun d' hd' => hP d' (by simp [hd'])) ?_
    have := hP d (by simp) s hs
    rwa [he] at this
  | declines d ds s s1 s2 he _ ih =>
    refine ih (fun d' hd' => hP d' (by simp [hd'])) ?_
    have := hP d (by simp) s hs
    rwa [he] at this

theorem foldl_some {α : Type} : ∀ (d : Dict α) (x : Sec) (o : Option α), ((∃ v, (x, v) ∈ d) ∨ o.isSome) →
    (d.foldl (fun o kv => if kv.1 = x then some kv.2 else o) o).isSome
  | [], x, o, h => by
    rcases h with ⟨v, h⟩ | h
    · simp at h
    · exact h
  | (y, v) :: d, x, o, h => by
    refine foldl_some d x _ ?_
    rcases h with ⟨u, h⟩ | h
    · simp only [List.mem_cons, Prod.mk.injEq] at h
      rcases h with ⟨rfl, rfl⟩ | h
      · exact .inr (by simp)
      · exact .inl ⟨u, h⟩
    · refine .inr ?_
      simp only
      split
      · rfl
      · exact h

/-- Failed attempts do not matter to the heap that a prover with all the values sees. -/
theorem attempts_heap {h : Objects E} {w : World} {r : Nat} {t : Core E} (hr : h.tree r = some t) {ds : List (Dict Int)}
    {s' : Objects E × World} (hf : FailedAttempts r ds (h, w) s') {d : Dict Int}
    (hds : ∀ d0 ∈ ds, ∀ x v, (x, v) ∈ d0 → ∃ v', (x, v') ∈ d) : heapFor s'.2.store d t = heapFor w.store d t := by
  have key : Stored d w.store s'.2.store := by
    refine attempt_leaves (P := fun s => Stored d w.store s.2.store) hf (fun d0 hd0 s hs => ?_) (Stored.refl _ _)
    have h1 := stored_getProver d0 s.1.objs.length r s
    refine hs.trans ⟨h1.1, fun x hx => h1.2 x fun v hv => ?_⟩
    obtain ⟨v', hv'⟩ := hds d0 hd0 x v hv
    exact hx v' hv'
  have hcomp : ∀ x, ((d.foldl (fun o kv => if kv.1 = x then some kv.2 else o) none).or (s'.2.store.value x)) =
      ((d.foldl (fun o kv => if kv.1 = x then some kv.2 else o) none).or (w.store.value x)) := by
    intro x
    by_cases hx : ∃ v, (x, v) ∈ d
    · have := foldl_some d x none (.inl hx)
      obtain ⟨v, hv⟩ := Option.isSome_iff_exists.mp this
      rw [hv]
      rfl
    · rw [key.2 x fun v hv => hx ⟨v, hv⟩]
  cases t with
  | leaf s0 =>
    obtain ⟨lhs, bases, vars, v, b, ho⟩ := read_leaf_obj hr
    have := attempt_leaves (P := fun s => s.2.store = w.store ∧ ∃ b, s.1.objs[r]? = some (Obj.rep lhs bases vars v b)) hf
      (fun d0 _ s hs => by
        obtain ⟨h1, b', h2⟩ := hs
        refine ⟨(rep_store h2).trans h1, ?_⟩
        rcases (left_prover r d0 s).objs r with e | ⟨_, a1, a2, a3, a4, a5, e1, e2⟩
        · exact ⟨b', e.trans h2⟩
        · rw [h2] at e1
          injection e1 with e1
          simp only [Obj.rep.injEq] at e1
          obtain ⟨rfl, rfl, rfl, rfl, _⟩ := e1
          exact ⟨true, e2⟩) ⟨rfl, b, ho⟩
    exact this.1
  | and b subs =>
    show (⟨s'.2.store.name, _⟩ : Store) = ⟨w.store.name, _⟩
    rw [key.1]
    congr 1
    funext x
    exact hcomp x
  | or b subs =>
    show (⟨s'.2.store.name, _⟩ : Store) = ⟨w.store.name, _⟩
    rw [key.1]
    congr 1
    funext x
    exact hcomp x

/-- Failed attempts are calls. -/
theorem attempts_calls {r : Nat} {ds : List (Dict Int)} {s s' : Objects E × World} (hf : FailedAttempts r ds s s') :
    Calls (fun _ q => q = r) (fun _ _ => False) s.1 s'.1 := by
  induction hf with
  | none s => exact .none _
  | prove env d ds msg x s s1 s2 he _ ih =>
    exact .more _ _ _ [r] [] (.proveRaises env r d msg s.2 s1.2 x s1.1 he) (fun q hq => by simpa using hq) (fun m hm => by simp at hm) ih
  | raises d ds x s s1 s2 he _ ih =>
    exact .more _ _ _ [r] [] (.getProverRaises r d s.2 s1.2 x s1.1 he) (fun q hq => by simpa using hq) (fun m hm => by simp at hm) ih
  | declines d ds s s1 s2 he _ ih =>
    refine .more _ _ _ [r] [] (.getProver r d s.2 s1.2 none s1.1 ?_) (fun q hq => by simpa using hq) (fun m hm => by simp at hm) ih
    rw [← forget_prover]
    unfold forget
    rw [show (s.1, s.2) = s from rfl, he]

/-! ### Marks -/

/-- The object is a representation that is marked. -/
def Spent (h : Objects E) (r : Nat) : Prop := ∃ lhs bases vars v, h.objs[r]? = some (Obj.rep lhs bases vars v true)

theorem used_left {R : Nat → Prop} {h h' : Objects E} (hl : Left R h h') {r : Nat} (hu : Spent h r) : Spent h' r := by
  obtain ⟨a1, a2, a3, a4, e⟩ := hu
  rcases hl.objs r with e1 | ⟨_, b1, b2, b3, b4, b5, _, e2⟩
  · exact ⟨a1, a2, a3, a4, e1.trans e⟩
  · exact ⟨b1, b2, b3, b4, e2⟩

/-- `get_prover` of a representation marks it, if it returns something. -/
theorem rep_used {d : Dict Int} {n r : Nat} {s s' : Objects E × World} {p : Option (HProver E)}
    {lhs : Pt E} {bases : List (Pt E)} {vars : List Sec} {v : Nat} {b : Bool} (ho : s.1.objs[r]? = some (.rep lhs bases vars v b))
    (he : Objects.tryGetProver d n r s = (.ok p, s')) : Spent s'.1 r := by
  cases n with
  | zero => cases (Prod.mk.inj he).1
  | succ n =>
    simp only [Objects.tryGetProver, km_bind, KM.objects, ho] at he
    cases hv : s.1.dicts[v]? with
    | none => rw [hv] at he; cases (Prod.mk.inj he).1
    | some vals =>
      simp only [hv, km_bind, KM.other, getStore, KM.setObjects] at he
      have hs : s'.1 = ⟨s.1.objs.set r (.rep lhs bases vars v true), s.1.dicts.set v (Dict.update s.2.store vals d), s.1.lists⟩ := by
        split at he <;> exact ((Prod.mk.inj he).2 ▸ rfl)
      rw [hs]
      exact ⟨lhs, bases, vars, v, by simp [(List.getElem?_eq_some_iff.mp ho).1]⟩

/-- The loop of a disjunction of representations that finds no prover has marked all the candidates. -/
theorem any_used {d : Dict Int} {n : Nat} {rs : List Nat} : ∀ (fuel : Nat) (possible : List Nat) (s s' : Objects E × World),
    possible.length ≤ fuel → (∀ r ∈ rs, ∃ lhs bases vars v b, s.1.objs[r]? = some (Obj.rep lhs bases vars v b)) →
    Objects.tryAny (Objects.tryGetProver d n) rs fuel possible s = (.ok none, s') →
    ∀ i ∈ possible, ∀ r, rs[i]? = some r → Spent s'.1 r
  | 0, possible, s, s', hl, _, _, i, hi, r, _ => by
    have : possible = [] := List.eq_nil_of_length_eq_zero (by omega)
    simp [this] at hi
  | fuel + 1, possible, s, s', hl, hrep, he, i, hi, r, hr => by
    simp only [Objects.tryAny] at he
    split at he
    · rename_i hemp
      rw [List.isEmpty_iff] at hemp
      simp [hemp] at hi
    · simp only [km_bind, KM.other] at he
      cases hc : PTree.choice possible s.2 with
      | error e => rw [hc] at he; cases (Prod.mk.inj he).1
      | ok y =>
        obtain ⟨j, w1⟩ := y
        have hj := (choice_mem hc).1
        rw [hc] at he
        simp only at he
        cases hrj : rs[j]? with
        | none => rw [hrj] at he; cases (Prod.mk.inj he).1
        | some q =>
          simp only [hrj, km_bind] at he
          obtain ⟨a1, a2, a3, a4, a5, ho⟩ := hrep q (List.mem_of_getElem? hrj)
          rcases hg : (Objects.tryGetProver d n q : KM E _) (s.1, w1) with ⟨e | p, s1⟩
          · rw [hg] at he; cases (Prod.mk.inj he).1
          · rw [hg] at he
            simp only at he
            cases p with
            | some p => cases (Prod.mk.inj he).1
            | none =>
              simp only at he
              have hu : Spent s1.1 q := rep_used (s := (s.1, w1)) ho hg
              have hleft : Left (Reaches s.1 q) s.1 s1.1 := by
                have := left_getProver d n q (s.1, w1)
                rwa [hg] at this
              have hrep1 : ∀ r ∈ rs, ∃ lhs bases vars v b, s1.1.objs[r]? = some (Obj.rep lhs bases vars v b) := by
                intro r hr
                obtain ⟨b1, b2, b3, b4, b5, e⟩ := hrep r hr
                rcases hleft.objs r with e1 | ⟨_, c1, c2, c3, c4, c5, _, e2⟩
                · exact ⟨b1, b2, b3, b4, b5, e1.trans e⟩
                · exact ⟨c1, c2, c3, c4, true, e2⟩
              by_cases hij : i = j
              · subst hij
                rw [hrj] at hr
                injection hr with hr
                subst hr
                have := left_any (left_getProver d n) rs fuel (possible.erase i) s1
                rw [he] at this
                exact used_left this hu
              · refine any_used fuel (possible.erase j) s1 s' ?_ hrep1 he i ?_ r hr
                · rw [List.length_erase_of_mem hj]
                  omega
                · exact (List.mem_erase_of_ne hij).mpr hi

theorem candidates_mem {h : Objects E} : ∀ (rs : List Nat) (k i : Nat) (r : Nat), rs[i]? = some r →
    (h.objs[r]?.map Obj.simulated).getD true = false → k + i ∈ Objects.candidates h rs k
  | [], k, i, r, e, _ => by simp at e
  | q :: rs, k, 0, r, e, hs => by
    simp only [List.getElem?_cons_zero, Option.some.injEq] at e
    subst e
    simp [Objects.candidates, hs]
  | q :: rs, k, i + 1, r, e, hs => by
    have := candidates_mem rs (k + 1) i r (by simpa using e) hs
    rw [show k + 1 + i = k + (i + 1) by omega] at this
    simp only [Objects.candidates]
    split
    · exact this
    · exact List.mem_cons_of_mem _ this

theorem candidates_none {h : Objects E} : ∀ (rs : List Nat) (k : Nat), (∀ r ∈ rs, Spent h r) → Objects.candidates h rs k = []
  | [], k, _ => rfl
  | r :: rs, k, hu => by
    obtain ⟨a1, a2, a3, a4, e⟩ := hu r (by simp)
    simp only [Objects.candidates, e, Option.map_some, Obj.simulated, Option.getD_some, if_true]
    exact candidates_none rs (k + 1) fun r hr => hu r (by simp [hr])

/-- A disjunction with all clauses marked has no prover. -/
theorem any_dead {h : Objects E} {r l : Nat} {b : Bool} {rs : List Nat} (ho : h.objs[r]? = some (.any l b))
    (hl : h.lists[l]? = some rs) (hu : b = true ∨ ∀ q ∈ rs, Spent h q) (env : Env E) (d : Dict Int) (msg : String) (w : World) :
    (∃ w', h.proverOf r d w = .ok ((none, h), w')) ∧ h.prove env r d msg w = .error .attributeError := by
  have key : ∃ w', h.proverOf r d w = .ok ((none, h), w') := by
    unfold Objects.proverOf
    cases hn : h.objs.length with
    | zero =>
      have := (List.getElem?_eq_some_iff.mp ho).1
      omega
    | succ n =>
      simp only [Objects.getProver, ho, hl, pm_getStore_bind, pm_setStore_bind]
      split
      · exact ⟨_, rfl⟩
      · rcases hu with hu | hu
        · contradiction
        · rw [candidates_none rs 0 hu]
          exact ⟨_, rfl⟩
  obtain ⟨w', e⟩ := key
  refine ⟨⟨w', e⟩, ?_⟩
  unfold Objects.prove
  rw [pm_bind_eq e]
  rfl

/-- Failure of `get_prover` marks all clauses. -/
theorem declined_used {h : Objects E} {r l : Nat} {rs : List Nat} (ho : h.objs[r]? = some (.any l false))
    (hl : h.lists[l]? = some rs) (hrep : ∀ q ∈ rs, ∃ lhs bases vars v b, h.objs[q]? = some (Obj.rep lhs bases vars v b))
    {d : Dict Int} {w : World} {s' : Objects E × World} (he : Objects.tryProver r d (h, w) = (.ok none, s')) :
    ∀ q ∈ rs, Spent s'.1 q := by
  have he' : (Objects.tryGetProver d h.objs.length r : KM E _) (h, w) = (.ok none, s') := he
  cases hn : h.objs.length with
  | zero =>
    have := (List.getElem?_eq_some_iff.mp ho).1
    omega
  | succ n =>
    rw [hn] at he'
    simp only [Objects.tryGetProver, km_bind, KM.objects, ho, hl, KM.other, getStore, setStore, Bool.false_eq_true, if_false] at he'
    generalize hw1 : ({ store := updateSecretValues w.store d, rng := w.rng } : World) = w1 at he'
    rcases hx : (Objects.tryAny (Objects.tryGetProver d n) rs (Objects.candidates h rs 0).length (Objects.candidates h rs 0) : KM E _)
      (h, w1) with ⟨e | x, s1⟩
    · rw [hx] at he'; cases (Prod.mk.inj he').1
    · rw [hx] at he'
      simp only at he'
      cases x with
      | some x =>
        obtain ⟨i, p⟩ := x
        simp only [km_bind, KM.objects] at he'
        cases hs : PTree.allSome (rs.map (s1.1.read n)) with
        | none => rw [hs] at he'; cases (Prod.mk.inj he').1
        | some ts =>
          simp only [hs, km_bind, KM.other] at he'
          cases hset : PTree.setupSimulations i ts 0 s1.2 with
          | error e => rw [hset] at he'; cases (Prod.mk.inj he').1
          | ok y => rw [hset] at he'; cases (Prod.mk.inj he').1
      | none =>
        have hs1 : s1 = s' := (Prod.mk.inj he').2
        subst hs1
        intro q hq
        obtain ⟨i, hi⟩ := List.getElem?_of_mem hq
        obtain ⟨a1, a2, a3, a4, b, hob⟩ := hrep q hq
        cases b with
        | true =>
          have := left_any (left_getProver d n) rs (Objects.candidates h rs 0).length (Objects.candidates h rs 0) (h, w1)
          rw [hx] at this
          exact used_left this ⟨a1, a2, a3, a4, hob⟩
        | false =>
          have hm := candidates_mem (h := h) rs 0 i q hi (by rw [hob]; rfl)
          rw [Nat.zero_add] at hm
          exact any_used _ _ (h, w1) s1 (le_refl _) hrep hx i hm q hi

theorem read_leaf_obj' {h : Objects E} {n r : Nat} {s : DLRep E} (hr : h.read n r = some (.leaf s)) :
    ∃ lhs bases vars v b, h.objs[r]? = some (Obj.rep lhs bases vars v b) := by
  cases n with
  | zero => cases hr
  | succ n =>
    simp only [Objects.read] at hr
    cases ho : h.objs[r]? with
    | none => rw [ho] at hr; cases hr
    | some o =>
      cases o with
      | rep lhs bases vars v b => exact ⟨lhs, bases, vars, v, b, rfl⟩
      | all l b' =>
        simp only [ho, Option.bind_eq_some_iff, Option.map_eq_some_iff] at hr
        obtain ⟨_, _, _, _, hr⟩ := hr
        cases hr
      | any l b' =>
        simp only [ho, Option.bind_eq_some_iff, Option.map_eq_some_iff] at hr
        obtain ⟨_, _, _, _, hr⟩ := hr
        cases hr

/-- The objects of a disjunction of representations. -/
theorem read_any_reps {h : Objects E} {r : Nat} {b : Bool} {ss : List (DLRep E)} (hr : h.tree r = some (.or b (ss.map .leaf))) :
    ∃ l rs, h.objs[r]? = some (Obj.any l b) ∧ h.lists[l]? = some rs ∧
      ∀ q ∈ rs, ∃ lhs bases vars v b, h.objs[q]? = some (Obj.rep lhs bases vars v b) := by
  unfold Objects.tree at hr
  cases hn : h.objs.length with
  | zero => rw [hn] at hr; cases hr
  | succ n =>
    rw [hn] at hr
    simp only [Objects.read] at hr
    cases ho : h.objs[r]? with
    | none => rw [ho] at hr; cases hr
    | some o =>
      cases o with
      | rep lhs bases vars v b' =>
        simp only [ho, Option.map_eq_some_iff] at hr
        obtain ⟨_, _, hr⟩ := hr
        cases hr
      | all l b' =>
        simp only [ho, Option.bind_eq_some_iff, Option.map_eq_some_iff] at hr
        obtain ⟨_, _, _, _, hr⟩ := hr
        cases hr
      | any l b' =>
        simp only [ho, Option.bind_eq_some_iff, Option.map_eq_some_iff] at hr
        obtain ⟨rs, hl, ts, hts, hr⟩ := hr
        injection hr with hb hr
        subst hb
        subst hr
        refine ⟨l, rs, rfl, hl, fun q hq => ?_⟩
        obtain ⟨i, hi⟩ := List.getElem?_of_mem hq
        have e := congrArg (·[i]?) (allSome_eq hts)
        simp only [List.getElem?_map, hi, Option.map_some] at e
        cases hsi : ss[i]? with
        | none => simp [hsi] at e
        | some s =>
          simp only [hsi, Option.map_some, Option.some.injEq] at e
          exact read_leaf_obj' e

end Zksk.Share
