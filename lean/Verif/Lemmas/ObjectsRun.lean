import Verif.Lemmas.Objects
import Verif.Lemmas.ExtLeaf
import Verif.Lemmas.TwinCommit

/-! Provers of statement objects that may share parts. -/

set_option linter.unusedSectionVars false

namespace Zksk.Share

open Spec

variable {E : Type} [AddCommGroup E] [DecidableEq E]

/-! ### Secrets of disjunctions -/

mutual
/-- The secrets that occur in disjunctions. -/
def orSecrets : Core E → List Sec
  | .leaf _ => []
  | .and _ ts => orSecretsL ts
  | .or _ ts => secretsL ts
/-- `orSecrets` for lists. -/
def orSecretsL : List (Core E) → List Sec
  | [] => []
  | t :: ts => orSecrets t ++ orSecretsL ts
end

theorem mem_orSecretsL {x : Sec} {ts : List (Core E)} : x ∈ orSecretsL ts ↔ ∃ t ∈ ts, x ∈ orSecrets t := by
  induction ts with
  | nil => simp [orSecretsL]
  | cons t ts ih => simp [orSecretsL, ih]

theorem orAt_of_mem {x : Sec} : ∀ (t : Core E), x ∈ orSecrets t →
    ∃ pre u post, OrAt t pre u post ∧ x ∈ secrets u := by
  intro t
  induction t using Tree.ind with
  | leaf s => intro h; simp [orSecrets] at h
  | and b ts ih =>
    intro h
    simp only [orSecrets] at h
    obtain ⟨t, ht, hx⟩ := mem_orSecretsL.mp h
    obtain ⟨pre, u, post, h1, h2⟩ := ih t ht hx
    obtain ⟨ls, rs, rfl⟩ := List.append_of_mem ht
    exact ⟨_, u, _, .down b ls t rs pre post u h1, h2⟩
  | or b ts _ =>
    intro h
    exact ⟨[], _, [], .here b ts, h⟩

/-- In a conjunction, secrets of disjunctions in one part do not occur in the other parts. -/
theorem private_apart {σ : Store} {b : Bool} {ts : List (Core E)} (h : OrsPrivate σ (.and b ts)) {i j : Nat}
    {t u : Core E} (hi : ts[i]? = some t) (hj : ts[j]? = some u) (hne : i ≠ j) :
    ∀ x ∈ orSecrets t, ∀ y ∈ secrets u, x ≠ y := by
  intro x hx y hy he
  obtain ⟨pre, o, post, h1, h2⟩ := orAt_of_mem t hx
  obtain ⟨hil, hig⟩ := List.getElem?_eq_some_iff.mp hi
  have hsplit : ts = ts.take i ++ t :: ts.drop (i + 1) := by
    conv_lhs => rw [← List.take_append_drop i ts, List.drop_eq_getElem_cons hil, hig]
  have h3 : OrAt (.and b ts) (secretsL (ts.take i) ++ pre) o (post ++ secretsL (ts.drop (i + 1))) := by
    conv => arg 1; rw [hsplit]
    exact .down b _ t _ pre post o h1
  refine h _ _ _ h3 x h2 y ?_ (by rw [he])
  rcases Nat.lt_or_gt_of_ne hne with hlt | hgt
  · have : u ∈ ts.drop (i + 1) := List.mem_iff_getElem?.mpr ⟨j - (i + 1), by
      rw [List.getElem?_drop, show i + 1 + (j - (i + 1)) = j by omega, hj]⟩
    simp only [List.mem_append]
    exact .inr (.inr (mem_secretsL.mpr ⟨u, this, hy⟩))
  · have : u ∈ ts.take i := List.mem_iff_getElem?.mpr ⟨j, by
      rw [List.getElem?_take_of_lt (by omega), hj]⟩
    simp only [List.mem_append]
    exact .inl (.inl (mem_secretsL.mpr ⟨u, this, hy⟩))

theorem orSecrets_blank : ∀ (t t' : Core E), Tree.blank t' = Tree.blank t → orSecrets t' = orSecrets t := by
  intro t
  induction t using Tree.ind with
  | leaf s =>
    intro t' h
    obtain ⟨s', rfl, _⟩ := Tree.blank_leaf_inv h
    rfl
  | and b ts ih =>
    intro t' h
    obtain ⟨b', ts', rfl, hb⟩ := Tree.blank_and_inv h
    simp only [orSecrets]
    have : ∀ (us us' : List (Core E)), (∀ u ∈ us, u ∈ ts) → Tree.blankL us' = Tree.blankL us →
        orSecretsL us' = orSecretsL us := by
      intro us
      induction us with
      | nil =>
        intro us' _ h
        cases us' with
        | nil => rfl
        | cons _ _ => simp [Tree.blankL] at h
      | cons u us ihu =>
        intro us' hm h
        cases us' with
        | nil => simp [Tree.blankL] at h
        | cons u' us' =>
          simp only [Tree.blankL, List.cons.injEq] at h
          simp only [orSecretsL, ih u (hm u (by simp)) u' h.1, ihu us' (fun v hv => hm v (by simp [hv])) h.2]
    exact this ts ts' (fun _ h => h) hb
  | or b ts _ =>
    intro t' h
    obtain ⟨b', ts', rfl, hb⟩ := Tree.blank_or_inv h
    exact (shapeL_blank _ _ hb).2

theorem torsion_blank {t t' : Core E} (h : Torsion t) (hb : Tree.blank t' = Tree.blank t) : Torsion t' := by
  have : terms t' = terms t := by rw [← terms_blank t', hb, terms_blank]
  unfold Torsion at *
  rw [this]; exact h

/-! ### Statements stay satisfied -/

/-- Values of the secrets in `S` were used. -/
def Used (S : List Sec) (vars : List Sec) : Prop := vars ≠ [] ∧ ∀ x ∈ vars, x ∈ S

theorem later_unmarked {σ : Store} {d : Dict Int} {S : List Sec} {t t' : Core E} (h : Later σ d (Used S) t t')
    (hS : ∀ x ∈ secrets t, x ∉ S) : unmarked t' ↔ unmarked t := by
  cases h with
  | leaf s s' hn hg hm =>
    rcases hm with hm | ⟨hne, hm⟩
    · simp only [unmarked, hm]
    · obtain ⟨x, hx⟩ := List.exists_mem_of_ne_nil _ hne
      exact (hS x hx (hm x hx)).elim
  | and => exact Iff.rfl
  | or => exact Iff.rfl

theorem satisfied_later {σ : Store} {d : Dict Int} {X : Key → Int} {S : List Sec} {t t' : Core E}
    (h : Later σ d (Used S) t t') : (∀ x ∈ orSecrets t, x ∉ S) → Satisfied σ d X t → Satisfied σ d X t' := by
  induction h with
  | leaf s s' hn hg hm =>
    intro _ hs
    cases hs with
    | rep _ hv hh =>
    have h1 : s'.bases = s.bases := by have := congrArg DLRep.bases hn; exact this
    have h2 : s'.secretVars = s.secretVars := by have := congrArg DLRep.secretVars hn; exact this
    have h3 : s'.lhs = s.lhs := by have := congrArg DLRep.lhs hn; exact this
    refine .rep _ (fun x hx => ?_) ?_
    · rw [hg x]; exact hv x (h2 ▸ hx)
    · cases hh with
      | rep _ _ i1 i2 =>
        refine .rep _ _ ?_ ?_
        · rw [h1, h3]; exact i1
        · rw [h1, h2, h3]; exact i2
  | and b ts ts' hl h ih =>
    intro hS hs
    cases hs with
    | all _ hs =>
    refine .all _ fun t' ht' => ?_
    obtain ⟨i, hi⟩ := List.mem_iff_getElem?.mp ht'
    have hil : i < ts.length := by rw [← hl]; exact (List.getElem?_eq_some_iff.mp hi).1
    have hti := List.getElem?_eq_getElem hil
    have hm := List.mem_of_getElem? hti
    exact ih i _ _ hti hi (fun x hx => hS x (by simp only [orSecrets]; exact mem_orSecretsL.mpr ⟨_, hm, hx⟩)) (hs _ hm)
  | or b ts ts' hl h ih =>
    intro hS hs
    cases hs with
    | any _ hex hs =>
    have hsub : ∀ t ∈ ts, ∀ x ∈ secrets t, x ∉ S := fun t ht x hx =>
      hS x (by simp only [orSecrets]; exact mem_secretsL.mpr ⟨t, ht, hx⟩)
    refine .any _ ?_ fun t' ht' hu => ?_
    · obtain ⟨t, ht, hu⟩ := hex
      obtain ⟨i, hi⟩ := List.mem_iff_getElem?.mp ht
      have hil : i < ts'.length := by rw [hl]; exact (List.getElem?_eq_some_iff.mp hi).1
      have hti := List.getElem?_eq_getElem hil
      exact ⟨_, List.mem_of_getElem? hti, (later_unmarked (h i _ _ hi hti) (hsub t ht)).mpr hu⟩
    · obtain ⟨i, hi⟩ := List.mem_iff_getElem?.mp ht'
      have hil : i < ts.length := by rw [← hl]; exact (List.getElem?_eq_some_iff.mp hi).1
      have hti := List.getElem?_eq_getElem hil
      have hm := List.mem_of_getElem? hti
      refine ih i _ _ hti hi (fun x hx => ?_) (hs _ hm ((later_unmarked (h i _ _ hti hi) (hsub _ hm)).mp hu))
      obtain ⟨pre, u, post, h1, h2⟩ := orAt_of_mem _ hx
      exact hsub _ hm x (by rw [orAt_secrets h1]; simp [h2])

/-! ### Transfer to statements with other marks and values -/

theorem acceptsT_blank {t t' : Core E} {v : Val E} (h : AcceptsT t v) (hb : Tree.blank t' = Tree.blank t) :
    AcceptsT t' v := by
  have e1 : Tree.skel t' = Tree.skel t := by rw [skel_core, skel_core]; exact congrArg some (shape_blank _ _ hb).1
  have e2 : Tree.core t' = Tree.core t := by rw [core_blank, core_blank, hb]
  have e3 : Tree.fullValidate t' = Tree.fullValidate t := by rw [validate_core, validate_core]
  refine ⟨fun σ tv hj => ?_, fun hv => ⟨(h.2 hv).1, fun σ tv hj => ?_⟩⟩
  · rw [e1, e2, e3]; exact h.1 σ tv (Tree.judge_blank hb.symm hj)
  · have := (h.2 hv).2 σ tv (Tree.judge_blank hb.symm hj)
    rw [e1, e2, e3]; exact this

theorem forall_accepts_blank : ∀ {ts ts' : List (Core E)} {vs : List (Val E)}, ts'.map Tree.blank = ts.map Tree.blank →
    List.Forall₂ AcceptsT ts vs → List.Forall₂ AcceptsT ts' vs
  | [], ts', _, hb, h => by
    cases h
    have : ts' = [] := by simpa using hb
    rw [this]; exact .nil
  | t :: ts, [], _, hb, _ => by simp at hb
  | t :: ts, t' :: ts', _, hb, h => by
    simp only [List.map_cons, List.cons.injEq] at hb
    cases h with
    | cons h1 h2 => exact .cons (acceptsT_blank h1 hb.1) (forall_accepts_blank hb.2 h2)

theorem simsOK_blank {σ : Store} {ts ts' : List (Core E)} {sims : List (Sim E)}
    (hb : ts'.map Tree.blank = ts.map Tree.blank) (h : SimsOK σ ts sims) : SimsOK σ ts' sims := by
  have hl : ts'.length = ts.length := by simpa using congrArg List.length hb
  refine ⟨hl.trans h.1, fun j t' sim ht' hs => ?_⟩
  have hj : j < ts.length := by rw [← hl]; exact (List.getElem?_eq_some_iff.mp ht').1
  have hbj := congrArg (·[j]?) hb
  simp only [List.getElem?_map, ht', List.getElem?_eq_getElem hj, Option.map_some, Option.some.injEq] at hbj
  obtain ⟨k, h1, h2⟩ := h.2 j _ sim (List.getElem?_eq_getElem hj) hs
  exact ⟨k, by rw [core_blank, hbj, ← core_blank, h1], h2⟩

theorem eraseIdx_blank {ts ts' : List (Core E)} (i : Nat) (hb : Tree.blankL ts' = Tree.blankL ts) :
    (ts'.eraseIdx i).map Tree.blank = (ts.eraseIdx i).map Tree.blank := by
  rw [Tree.blankL_eq, Tree.blankL_eq] at hb
  rw [← List.eraseIdx_map, hb, List.eraseIdx_map]

/-! ### Candidates -/

theorem read_simulated {h : Objects E} {n r : Nat} {t : Core E} (hr : h.read n r = some t) :
    h.objs[r]?.map Obj.simulated = some t.simulated := by
  cases n with
  | zero => simp [Objects.read] at hr
  | succ n =>
    simp only [Objects.read] at hr
    cases ho : h.objs[r]? with
    | none => simp [ho] at hr
    | some o =>
      cases o with
      | rep lhs bases vars v b =>
        simp only [ho, Option.map_eq_some_iff] at hr
        obtain ⟨vals, _, rfl⟩ := hr
        rfl
      | all l b =>
        simp only [ho] at hr
        cases hl : h.lists[l]? with
        | none => simp [hl] at hr
        | some rs =>
          simp only [hl, Option.bind_some, Option.map_eq_some_iff] at hr
          obtain ⟨ts, _, rfl⟩ := hr
          rfl
      | any l b =>
        simp only [ho] at hr
        cases hl : h.lists[l]? with
        | none => simp [hl] at hr
        | some rs =>
          simp only [hl, Option.bind_some, Option.map_eq_some_iff] at hr
          obtain ⟨ts, _, rfl⟩ := hr
          rfl

theorem candidates_read {h : Objects E} {n : Nat} : ∀ (rs : List Nat) (ts : List (Core E)) (i : Nat),
    PTree.allSome (rs.map (h.read n)) = some ts → h.candidates rs i = PTree.candidates ts i
  | [], ts, i, hts => by
    have := reads_length hts
    simp only [List.length_nil, List.length_eq_zero_iff] at this
    rw [this]; rfl
  | r :: rs, [], i, hts => by have := reads_length hts; simp at this
  | r :: rs, t :: ts, i, hts => by
    have hts' := allSome_iff.mp hts
    simp only [List.map_cons, List.cons.injEq] at hts'
    have := candidates_read rs ts (i + 1) (allSome_iff.mpr hts'.2)
    simp only [Objects.candidates, PTree.candidates, read_simulated hts'.1, Option.getD_some, this]

/-! ### Making provers -/

/-- The prover is fit, in the heap `h` and in all later ones. -/
def Fit (σ : Store) (d : Dict Int) (X : Key → Int) (h : Objects E) (hp : HProver E) (t : Core E) : Prop :=
  ∀ h', Frame (fun _ => True) h h' → Filled σ d h h' → ∃ p, hp.see h' = some p ∧ Primed (FitRep σ X) p ∧
    Honest (fun p _ => FitRep σ X p) σ p X ∧ Tree.blank (PTree.stmtOf p) = Tree.blank t

/-- What `get_prover` does on a satisfied statement. -/
def Makes (σ : Store) (d : Dict Int) (X : Key → Int) (n : Nat) (h : Objects E) (r : Nat) (t : Core E) (w : World) : Prop :=
  ∃ hp h' w', Objects.getProver d n h r w = .ok ((some hp, h'), w') ∧ w'.store = σ ∧
    Frame (Used (secrets t)) h h' ∧ Filled σ d h h' ∧ Fit σ d X h' hp t

theorem update_fill {σ : Store} {d : Dict Int} (hd : d.Uniq σ) (vals : Dict Int) (x : Sec) :
    Dict.get? σ (Dict.update σ vals d) x = (Dict.get? σ d x).or (Dict.get? σ vals x) := by
  cases hdx : Dict.get? σ d x with
  | some v => rw [Dict.get?_update_uniq hd _ x v hdx]; rfl
  | none => rw [Dict.get?_update_of_none _ hdx]; rfl

theorem makes_rep {σ : Store} {d : Dict Int} {X : Key → Int} (hd : d.Uniq σ) {n : Nat} {h : Objects E} {r : Nat}
    {lhs : Pt E} {bases : List (Pt E)} {vars : List Sec} {v : Nat} {b : Bool} {vals : Dict Int}
    (ho : h.objs[r]? = some (.rep lhs bases vars v b)) (hv : h.dicts[v]? = some vals)
    (hs : Solid (.leaf ⟨lhs, bases, vars, vals, b⟩)) (ht : Torsion (.leaf ⟨lhs, bases, vars, vals, b⟩))
    (hX : Satisfied σ d X (.leaf ⟨lhs, bases, vars, vals, b⟩)) (w : World) (hw : w.store = σ) :
    Makes σ d X (n + 1) h r (.leaf ⟨lhs, bases, vars, vals, b⟩) w := by
  cases hX with
  | rep _ hval hh =>
  have hs' : SolidRep (⟨lhs, bases, vars, vals, b⟩ : DLRep E) := hs
  have hne : vars ≠ [] := by
    intro h0
    have := hs'.1
    simp only [h0] at this
    exact hs'.2.1 (List.length_eq_zero_iff.mp this.symm)
  have hk : ∀ x ∈ vars, Dict.get? σ (Dict.update σ vals d) x = some (X (σ.key x)) := by
    intro x hx
    rw [update_fill hd]
    exact hval x hx
  have hrl : r < h.objs.length := (List.getElem?_eq_some_iff.mp ho).1
  have hvl : v < h.dicts.length := (List.getElem?_eq_some_iff.mp hv).1
  refine ⟨.rep r v none, ⟨h.objs.set r (.rep lhs bases vars v true), h.dicts.set v (Dict.update σ vals d), h.lists⟩,
    w, ?_, hw, ?_, ?_, ?_⟩
  · simp only [Objects.getProver, ho, hv]
    rw [pm_getStore_bind, hw]
    rw [if_neg]
    · rfl
    · obtain ⟨x0, hx0⟩ := List.exists_mem_of_ne_nil _ hne
      simp only [Bool.or_eq_true, List.isEmpty_iff, List.any_eq_true, Bool.not_eq_true', not_or, not_exists,
        not_and, Bool.not_eq_false]
      refine ⟨fun h0 => ?_, fun x hx => ?_⟩
      · have := hk x0 hx0
        rw [h0] at this
        simp [Dict.get?] at this
      · unfold Dict.has
        rw [hk x hx]; rfl
  · refine ⟨rfl, by simp, fun r' => ?_⟩
    simp only [List.getElem?_set]
    by_cases hr : r = r'
    · subst hr
      refine .inr ⟨lhs, bases, vars, v, b, ho, by simp [hrl], hne, fun x hx => ?_⟩
      show x ∈ vars
      exact hx
    · exact .inl (by simp [hr])
  · intro v' vals1 vals2 h1 h2
    simp only [List.getElem?_set] at h2
    by_cases hvv : v = v'
    · subst hvv
      rw [hv] at h1
      injection h1 with h1
      subst h1
      simp only [if_true, hvl, Option.some.injEq] at h2
      subst h2
      exact .inr fun x => update_fill hd _ x
    · rw [if_neg hvv, h1] at h2
      exact .inl (Option.some.inj h2).symm
  · intro h' hf hfill
    have ho' : h'.objs[r]? = some (.rep lhs bases vars v true) := by
      rcases hf.objs r with e | ⟨a1, a2, a3, a4, a5, e1, e2, _⟩
      · rw [e]; simp [hrl]
      · simp only [List.getElem?_set, if_true, hrl, Option.some.injEq, Obj.rep.injEq] at e1
        obtain ⟨rfl, rfl, rfl, rfl, _⟩ := e1
        exact e2
    have hv1 : (h.dicts.set v (Dict.update σ vals d))[v]? = some (Dict.update σ vals d) := by simp [hvl]
    obtain ⟨vals', hv'⟩ := hf.dict hv1
    have hk' : ∀ x ∈ vars, Dict.get? σ vals' x = some (X (σ.key x)) := by
      intro x hx
      rcases hfill v _ _ hv1 hv' with e | e
      · rw [e]; exact hk x hx
      · rw [e x, update_fill hd]
        have := hval x hx
        unfold given at this
        rw [← this]
        cases Dict.get? σ d x <;> rfl
    have hfit : FitRep σ X (⟨⟨lhs, bases, vars, vals', true⟩, vals', none⟩ : DLRepProver E) := by
      obtain ⟨g1, g2⟩ := solidRep_norm (s := ⟨lhs, bases, vars, vals, b⟩) (s' := ⟨lhs, bases, vars, vals', true⟩) rfl
        ⟨hs', ht⟩
      refine ⟨⟨g1, g2⟩, g1.1, hk', ?_, g2⟩
      cases hh with
      | rep _ _ i1 i2 => exact .rep _ _ i1 i2
    refine ⟨.leaf ⟨⟨lhs, bases, vars, vals', true⟩, vals', none⟩, ?_, .leaf _ hfit, .leaf _ _ hfit, rfl⟩
    simp only [HProver.see, Objects.read, ho', hv', Option.map_some]

theorem blankL_stmtOf_set {ts ts' : List (Core E)} {t u : Core E} {i : Nat} (h1 : Tree.blankL ts' = Tree.blankL ts)
    (hi : ts[i]? = some t) (h2 : Tree.blank u = Tree.blank t) : Tree.blankL (ts'.set i u) = Tree.blankL ts :=
  Peer.blankL_set h1 hi h2

theorem makes_any {σ : Store} {d : Dict Int} {X : Key → Int} (hupd : updateSecretValues σ d = σ) (hd : d.Uniq σ)
    {n : Nat} {h : Objects E} {r l : Nat} {rs : List Nat} {ts : List (Core E)}
    (ih : ∀ (h : Objects E) (r : Nat) (t : Core E), n ≤ h.objs.length → h.read n r = some t → Solid t → Torsion t →
      Composable σ t → Satisfied σ d X t → ∀ w, w.store = σ → Makes σ d X n h r t w)
    (hn : n ≤ h.objs.length) (ho : h.objs[r]? = some (.any l false)) (hl : h.lists[l]? = some rs)
    (hr : PTree.allSome (rs.map (h.read n)) = some ts) (hs : Solid (.or false ts)) (ht : Torsion (.or false ts))
    (hc : Composable σ (.or false ts)) (hX : Satisfied σ d X (.or false ts)) (w : World) (hw : w.store = σ) :
    Makes σ d X (n + 1) h r (.or false ts) w := by
  cases hX with
  | any _ hex hX =>
  have hg := good_both _ hs ht
  cases hg with
  | or _ _ hne0 hg =>
  cases hc with
  | or _ _ _ hc =>
  have hcand := candidates_read rs ts 0 hr
  have hne := candidates_ne ts 0 hex
  obtain ⟨i, w1, h1⟩ := choice_progress hne w
  obtain ⟨h2, h3⟩ := choice_mem h1
  obtain ⟨_, t, hti, hun⟩ := candidates_mem ts 0 i h2
  simp only [Nat.sub_zero] at hti
  have hm := List.mem_of_getElem? hti
  obtain ⟨ri, hri, hrt⟩ := reads_get' hr hti
  have htor : ∀ u ∈ ts, Torsion u := fun u hu x b hx => ht x b (by simp only [terms]; exact mem_termsL.mpr ⟨u, hu, hx⟩)
  obtain ⟨hp, hh1, w2, g1, g2, g3, g4, g5⟩ := ih h ri t hn hrt (solidL_iff.mp hs.2 t hm) (htor t hm) (hc t hm)
    (hX t hm (unmarked_of_simulated hun)) w1 (h3.trans hw)
  have hread : ∀ h' : Objects E, ∀ M, Frame M h h' → Filled σ d h h' →
      ∃ ts', PTree.allSome (rs.map (h'.read n)) = some ts' ∧ Tree.blankL ts' = Tree.blankL ts := by
    intro h' M hf hfill
    obtain ⟨ts', e1, e2, e3⟩ := reads_of (f := h'.read n) (rs := rs)
      (Q := fun i t' => ∀ t, ts[i]? = some t → Tree.blank t' = Tree.blank t) (by
        intro i r hi
        obtain ⟨t, e1, e2⟩ := reads_get hr hi
        obtain ⟨t', e3, e4⟩ := read_later hf hfill n r t e2
        refine ⟨t', e3, fun u hu => ?_⟩
        rw [e1] at hu
        exact Option.some.inj hu ▸ later_blank e4)
    exact ⟨ts', e1, blankL_of_get (e2.trans (reads_length hr).symm) fun i t t' e e' => e3 i t' e' t e⟩
  obtain ⟨ts1, hr1, hb1⟩ := hread hh1 _ g3 g4
  have hgs : ∀ (ts' : List (Core E)), Tree.blankL ts' = Tree.blankL ts → ∀ u ∈ ts', Solid u ∧ Torsion u := by
    intro ts' hb' u hu
    obtain ⟨v, hv, e⟩ := (blankL_get hb'.symm).2 u hu
    exact ⟨solid_blank (solidL_iff.mp hs.2 v hv) e.symm, torsion_blank (htor v hv) e.symm⟩
  obtain ⟨sims, w3, k1, k2⟩ := setup_progress i ts1 0
    (fun u hu => good_of_solid u (hgs ts1 hb1 u hu).1) w2
  obtain ⟨_, _, _, rest, q1, q2, q3, q4, _⟩ := setup_law (getLaws_true σ d X hupd hd) i ts1 0
    (fun u hu => good_both u (hgs ts1 hb1 u hu).1 (hgs ts1 hb1 u hu).2) ts1 sims w2 w3 g2 k1
  simp only [Nat.not_lt_zero, if_false, Nat.sub_zero] at q1
  subst q1
  refine ⟨.any r i hp sims, hh1, w3, ?_, k2.trans g2, ?_, g4, ?_⟩
  · simp only [Objects.getProver, ho, hl, pm_getStore_bind, pm_setStore_bind, hw, hupd]
    have hww : ({ w with store := σ } : World) = w := by cases w; simp at hw; simp [hw]
    rw [hww]
    simp only [Bool.false_eq_true, if_false, hcand]
    have hloop : Objects.getAny (Objects.getProver d n) rs (PTree.candidates ts 0).length (PTree.candidates ts 0) h w =
        .ok ((some (i, hp), hh1), w2) := by
      cases hcc : (PTree.candidates ts 0).length with
      | zero => exact (hne (List.length_eq_zero_iff.mp hcc)).elim
      | succ m =>
        simp only [Objects.getAny]
        rw [if_neg (by simpa using hne), pm_bind_eq h1]
        simp only [hri]
        rw [pm_bind_eq g1]
        rfl
    rw [pm_bind_eq hloop]
    simp only [hr1]
    rw [pm_bind_eq k1]
    rfl
  · refine g3.mono fun vs hvs => ⟨hvs.1, fun x hx => ?_⟩
    simp only [secrets]
    exact mem_secretsL.mpr ⟨t, hm, hvs.2 x hx⟩
  · intro h' hf hfill
    have hf' : Frame (fun _ => True) h h' := (g3.mono fun _ _ => trivial).trans hf
    obtain ⟨ts', hr', hb'⟩ := hread h' _ hf' (Filled.trans g3 g4 hfill)
    obtain ⟨p, e1, e2, e3, e4⟩ := g5 h' hf hfill
    have ho' : h'.objs[r]? = some (.any l false) := by
      rcases hf'.objs r with e | ⟨a1, a2, a3, a4, a5, e, _⟩
      · rw [e, ho]
      · rw [ho] at e; simp at e
    have htree : PTree.allSome (rs.map h'.tree) = some ts' := by
      rw [allSome_iff] at hr' ⊢
      refine List.ext_getElem? fun j => ?_
      have := congrArg (·[j]?) hr'
      simp only [List.getElem?_map] at this ⊢
      cases hj : rs[j]? with
      | none => rw [hj] at this; simpa using this
      | some rj =>
        rw [hj] at this
        cases hu : ts'[j]? with
        | none => rw [hu] at this; simp at this
        | some u =>
          rw [hu] at this
          simp only [Option.map_some, Option.some.injEq] at this ⊢
          exact read_mono h' n _ rj u (by rw [hf'.length]; exact hn) this
    have hbb : Tree.blankL ts' = Tree.blankL ts1 := hb'.trans hb1.symm
    have hlen : ts'.length = ts.length := (blankL_get hb').1
    have hi : i < ts'.length := by rw [hlen]; exact (List.getElem?_eq_some_iff.mp hti).1
    refine ⟨.or false i ts' p sims, ?_, ?_, ?_, ?_⟩
    · simp only [HProver.see, ho', hf'.lists, hl, htree, e1, Option.bind_some, Option.map_some]
    · refine .or _ _ _ _ _ hi (forall_accepts_blank (eraseIdx_blank i hbb) q2) (fun u hu => ?_) e2
      refine ⟨Tree.blank u, core_blank u, wf_of_good (good_blank (good_of_solid u ?_) _ (blank_blank u))⟩
      exact (hgs ts' hb' u (List.mem_of_mem_eraseIdx hu)).1
    · exact .or _ _ _ _ _ _ X hi (simsOK_blank (eraseIdx_blank i hbb) q4) e3
    · simp only [PTree.stmtOf, Tree.blank]
      rw [blankL_stmtOf_set hb' hti e4]

theorem makes_parts {σ : Store} {d : Dict Int} {X : Key → Int} {n : Nat}
    (ih : ∀ (h : Objects E) (r : Nat) (t : Core E), n ≤ h.objs.length → h.read n r = some t → Solid t → Torsion t →
      Composable σ t → Satisfied σ d X t → ∀ w, w.store = σ → Makes σ d X n h r t w) :
    ∀ (rs : List Nat) (ts : List (Core E)) (h : Objects E), n ≤ h.objs.length →
      PTree.allSome (rs.map (h.read n)) = some ts → (∀ t ∈ ts, Solid t) → (∀ t ∈ ts, Torsion t) →
      (∀ t ∈ ts, Composable σ t) → (∀ t ∈ ts, Satisfied σ d X t) →
      ts.Pairwise (fun a c => ∀ x ∈ orSecrets c, ∀ y ∈ secrets a, x ≠ y) → ∀ w, w.store = σ →
      ∃ hps h' w', Objects.getAll (Objects.getProver d n) rs h w = .ok ((hps.map some, h'), w') ∧ w'.store = σ ∧
        Frame (Used (secretsL ts)) h h' ∧ Filled σ d h h' ∧
        ∀ h'', Frame (fun _ => True) h' h'' → Filled σ d h' h'' → ∃ ps, HProver.seeL h'' hps = some ps ∧
          ps.length = ts.length ∧ (∀ p ∈ ps, Primed (FitRep σ X) p ∧ Honest (fun p _ => FitRep σ X p) σ p X) ∧
          Tree.blankL (PTree.stmtOfL ps) = Tree.blankL ts
  | [], ts, h, _, hr, _, _, _, _, _, w, hw => by
    have := reads_length hr
    simp only [List.length_nil, List.length_eq_zero_iff] at this
    subst this
    exact ⟨[], h, w, rfl, hw, Frame.refl _ h, Filled.refl _ _ h, fun h'' _ _ => ⟨[], rfl, rfl, by simp, rfl⟩⟩
  | r :: rs, [], h, _, hr, _, _, _, _, _, _, _ => by have := reads_length hr; simp at this
  | r :: rs, t :: ts, h, hn, hr, hs, ht, hc, hX, hp, w, hw => by
    have hr' := allSome_iff.mp hr
    simp only [List.map_cons, List.cons.injEq] at hr'
    obtain ⟨hp1, h1, w1, g1, g2, g3, g4, g5⟩ := ih h r t hn hr'.1 (hs t (by simp)) (ht t (by simp)) (hc t (by simp))
      (hX t (by simp)) w hw
    rw [List.pairwise_cons] at hp
    obtain ⟨ts', e1, e2, e3⟩ := reads_of (f := h1.read n) (rs := rs)
      (Q := fun i t' => ∀ u, ts[i]? = some u → Later σ d (Used (secrets t)) u t') (by
        intro i r hi
        obtain ⟨u, e1, e2⟩ := reads_get (allSome_iff.mpr hr'.2) hi
        obtain ⟨t', e3, e4⟩ := read_later g3 g4 n r u e2
        refine ⟨t', e3, fun v hv => ?_⟩
        rw [e1] at hv
        exact Option.some.inj hv ▸ e4)
    have hl : ts'.length = ts.length := e2.trans (reads_length (allSome_iff.mpr hr'.2)).symm
    have hb : Tree.blankL ts' = Tree.blankL ts := blankL_of_get hl fun i u t' e e' => later_blank (e3 i t' e' u e)
    have hback : ∀ u' ∈ ts', ∃ u ∈ ts, Later σ d (Used (secrets t)) u u' := by
      intro u' hu'
      obtain ⟨i, hi⟩ := List.mem_iff_getElem?.mp hu'
      have hil : i < ts.length := by rw [← hl]; exact (List.getElem?_eq_some_iff.mp hi).1
      exact ⟨_, List.getElem_mem hil, e3 i u' hi _ (List.getElem?_eq_getElem hil)⟩
    obtain ⟨hps, h2, w2, k1, k2, k3, k4, k5⟩ := makes_parts ih rs ts' h1 (by rw [g3.length]; exact hn) e1
      (fun u' hu' => by
        obtain ⟨u, hu, e⟩ := hback u' hu'
        exact solid_blank (hs u (by simp [hu])) (later_blank e))
      (fun u' hu' => by
        obtain ⟨u, hu, e⟩ := hback u' hu'
        exact torsion_blank (ht u (by simp [hu])) (later_blank e))
      (fun u' hu' => by
        obtain ⟨u, hu, e⟩ := hback u' hu'
        exact composable_blank (hc u (by simp [hu])) _ (later_blank e))
      (fun u' hu' => by
        obtain ⟨u, hu, e⟩ := hback u' hu'
        exact satisfied_later e (fun x hx hx' => hp.1 u hu x hx x hx' rfl) (hX u (by simp [hu])))
      (by
        rw [List.pairwise_iff_getElem] at hp ⊢
        intro i j hi hj hij x hx y hy
        have hi' : i < ts.length := by omega
        have hj' : j < ts.length := by omega
        have ei := later_blank (e3 i _ (List.getElem?_eq_getElem hi) _ (List.getElem?_eq_getElem hi'))
        have ej := later_blank (e3 j _ (List.getElem?_eq_getElem hj) _ (List.getElem?_eq_getElem hj'))
        rw [orSecrets_blank _ _ ej] at hx
        rw [(shape_blank _ _ ei).2] at hy
        exact hp.2 i j hi' hj' hij x hx y hy)
      w1 g2
    have hsec : secretsL ts' = secretsL ts := (shapeL_blank _ _ hb).2
    have f1 : Frame (Used (secretsL (t :: ts))) h h1 :=
      g3.mono fun vs hvs => ⟨hvs.1, fun x hx => by simp only [secretsL]; exact List.mem_append_left _ (hvs.2 x hx)⟩
    have f2 : Frame (Used (secretsL (t :: ts))) h1 h2 :=
      k3.mono fun vs hvs => ⟨hvs.1, fun x hx => by
        simp only [secretsL]; exact List.mem_append_right _ (hsec ▸ hvs.2 x hx)⟩
    refine ⟨hp1 :: hps, h2, w2, ?_, k2, f1.trans f2, Filled.trans f1 g4 k4, ?_⟩
    · simp only [Objects.getAll]
      rw [pm_bind_eq g1]
      simp only
      rw [pm_bind_eq k1]
      rfl
    · intro h'' hf hfill
      obtain ⟨p, p1, p2, p3, p4⟩ := g5 h'' ((f2.mono fun _ _ => trivial).trans hf) (Filled.trans f2 k4 hfill)
      obtain ⟨ps, q1, q2, q3, q4⟩ := k5 h'' hf hfill
      refine ⟨p :: ps, ?_, by simp [q2, hl], ?_, ?_⟩
      · simp only [HProver.seeL, p1, q1, Option.bind_some, Option.map_some]
      · intro q hq
        rcases List.mem_cons.mp hq with rfl | hq
        · exact ⟨p2, p3⟩
        · exact q3 q hq
      · simp only [PTree.stmtOfL, Tree.blankL, p4, q4, hb]

theorem makes_all {σ : Store} {d : Dict Int} {X : Key → Int} (hupd : updateSecretValues σ d = σ)
    {n : Nat} {h : Objects E} {r l : Nat} {rs : List Nat} {ts : List (Core E)}
    (ih : ∀ (h : Objects E) (r : Nat) (t : Core E), n ≤ h.objs.length → h.read n r = some t → Solid t → Torsion t →
      Composable σ t → Satisfied σ d X t → ∀ w, w.store = σ → Makes σ d X n h r t w)
    (hn : n ≤ h.objs.length) (ho : h.objs[r]? = some (.all l false)) (hl : h.lists[l]? = some rs)
    (hr : PTree.allSome (rs.map (h.read n)) = some ts) (hs : Solid (.and false ts)) (ht : Torsion (.and false ts))
    (hc : Composable σ (.and false ts)) (hX : Satisfied σ d X (.and false ts)) (w : World) (hw : w.store = σ) :
    Makes σ d X (n + 1) h r (.and false ts) w := by
  cases hX with
  | all _ hX =>
  cases hc with
  | and _ _ _ hpriv hc =>
  have htor : ∀ u ∈ ts, Torsion u := fun u hu x b hx => ht x b (by simp only [terms]; exact mem_termsL.mpr ⟨u, hu, hx⟩)
  obtain ⟨hps, h1, w1, g1, g2, g3, g4, g5⟩ := makes_parts ih rs ts h hn hr (solidL_iff.mp hs.2) htor hc hX (by
    rw [List.pairwise_iff_getElem]
    intro i j hi hj hij
    exact private_apart hpriv (List.getElem?_eq_getElem hj) (List.getElem?_eq_getElem hi) (by omega)) w hw
  refine ⟨.all r hps, h1, w1, ?_, g2, g3, g4, ?_⟩
  · simp only [Objects.getProver, ho, hl, pm_getStore_bind, pm_setStore_bind, hw, hupd]
    have hww : ({ w with store := σ } : World) = w := by cases w; simp at hw; simp [hw]
    rw [hww]
    simp only [Bool.false_eq_true, if_false]
    rw [pm_bind_eq g1]
    simp only [allSome_iff.mpr rfl]
    rfl
  · intro h' hf hfill
    obtain ⟨ps, e1, e2, e3, e4⟩ := g5 h' hf hfill
    have ho' : h'.objs[r]? = some (.all l false) := by
      rcases ((g3.mono (M' := fun _ => True) fun _ _ => trivial).trans hf).objs r with e | ⟨a1, a2, a3, a4, a5, e, _⟩
      · rw [e, ho]
      · rw [ho] at e; simp at e
    refine ⟨.and false ps, ?_, ?_, ?_, ?_⟩
    · simp only [HProver.see, ho', e1, Option.map_some]
    · refine .and _ _ (fun h0 => ?_) fun p hp => (e3 p hp).1
      rw [h0] at e2
      exact hs.1 (List.length_eq_zero_iff.mp e2.symm)
    · exact .and _ _ _ fun p hp => (e3 p hp).2
    · simp only [PTree.stmtOf, Tree.blank, e4]

theorem satisfied_mark {σ : Store} {d : Dict Int} {X : Key → Int} {b : Bool} {ts : List (Core E)}
    (h : Satisfied σ d X (.and b ts) ∨ Satisfied σ d X (.or b ts)) : b = false := by
  rcases h with h | h <;> cases h <;> rfl

theorem makes {σ : Store} {d : Dict Int} {X : Key → Int} (hupd : updateSecretValues σ d = σ) (hd : d.Uniq σ) :
    ∀ (n : Nat) (h : Objects E) (r : Nat) (t : Core E), n ≤ h.objs.length → h.read n r = some t → Solid t → Torsion t →
      Composable σ t → Satisfied σ d X t → ∀ w, w.store = σ → Makes σ d X n h r t w
  | 0, _, _, _, _, hr, _, _, _, _, _, _ => by simp [Objects.read] at hr
  | n + 1, h, r, t, hn, hr, hs, ht, hc, hX, w, hw => by
    simp only [Objects.read] at hr
    cases ho : h.objs[r]? with
    | none => simp [ho] at hr
    | some o =>
      cases o with
      | rep lhs bases vars v b =>
        simp only [ho, Option.map_eq_some_iff] at hr
        obtain ⟨vals, hv, rfl⟩ := hr
        exact makes_rep hd ho hv hs ht hX w hw
      | all l b =>
        simp only [ho] at hr
        cases hl : h.lists[l]? with
        | none => simp [hl] at hr
        | some rs =>
          simp only [hl, Option.bind_some, Option.map_eq_some_iff] at hr
          obtain ⟨ts, hts, rfl⟩ := hr
          have hb := satisfied_mark (.inl hX)
          subst hb
          exact makes_all hupd (makes hupd hd n) (by omega) ho hl hts hs ht hc hX w hw
      | any l b =>
        simp only [ho] at hr
        cases hl : h.lists[l]? with
        | none => simp [hl] at hr
        | some rs =>
          simp only [hl, Option.bind_some, Option.map_eq_some_iff] at hr
          obtain ⟨ts, hts, rfl⟩ := hr
          have hb := satisfied_mark (.inr hX)
          subst hb
          exact makes_any hupd hd (makes hupd hd n) (by omega) ho hl hts hs ht hc hX w hw

end Zksk.Share
