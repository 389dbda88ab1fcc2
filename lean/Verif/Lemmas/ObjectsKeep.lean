import Verif.Lemmas.ObjectsCalls
import Verif.Lemmas.Frame

/-! Which dictionaries `get_prover` changes, and what answers of prover objects depend on. -/

set_option linter.unusedSectionVars false

namespace Zksk.Share

open Spec

variable {E : Type} [AddCommGroup E] [DecidableEq E]

/-! ### Dictionaries -/

/-- A representation with dictionary `v` is reached from `r`. -/
def Owns (h : Objects E) (r v : Nat) : Prop :=
  ∃ q lhs bases vars b, Reaches h r q ∧ h.objs[q]? = some (Obj.rep lhs bases vars v b)

/-- What happens to the dictionaries: only those in `R` change, and if `S` then the values of `d` are written. -/
def Writes (R : Nat → Prop) (S : Prop) (σ : Store) (d : Dict Int) (h h' : Objects E) : Prop :=
  ∀ (v : Nat) vals, h.dicts[v]? = some vals → ∃ vals', h'.dicts[v]? = some vals' ∧ (vals' = vals ∨
    R v ∧ (S → ∀ x, Dict.get? σ vals' x = (Dict.get? σ d x).or (Dict.get? σ vals x)))

theorem Writes.refl (R : Nat → Prop) (S : Prop) (σ : Store) (d : Dict Int) (h : Objects E) : Writes R S σ d h h :=
  fun _ vals e => ⟨vals, e, .inl rfl⟩

theorem Writes.mono {R R' : Nat → Prop} {S : Prop} {σ : Store} {d : Dict Int} {h h' : Objects E}
    (hR : ∀ v, R v → R' v) (hw : Writes R S σ d h h') : Writes R' S σ d h h' := by
  intro v vals e
  obtain ⟨vals', e1, e2⟩ := hw v vals e
  exact ⟨vals', e1, e2.imp id fun x => ⟨hR v x.1, x.2⟩⟩

theorem Writes.trans {R : Nat → Prop} {S : Prop} {σ : Store} {d : Dict Int} {h h' h'' : Objects E}
    (h1 : Writes R S σ d h h') (h2 : Writes R S σ d h' h'') : Writes R S σ d h h'' := by
  intro v vals e
  obtain ⟨vals', e1, e2⟩ := h1 v vals e
  obtain ⟨vals'', e3, e4⟩ := h2 v vals' e1
  refine ⟨vals'', e3, ?_⟩
  rcases e2 with rfl | e2
  · exact e4
  · rcases e4 with rfl | e4
    · exact .inr e2
    · refine .inr ⟨e2.1, fun s x => ?_⟩
      rw [e4.2 s x, e2.2 s x]
      cases Dict.get? σ d x <;> rfl

theorem frame_reaches {M : List Sec → Prop} {h h' : Objects E} (hf : Frame M h h') {r q : Nat} (hr : Reaches h' r q) :
    Reaches h r q := by
  induction hr with
  | self => exact .self _
  | all r l b rs p q ho hl hp _ ih =>
    refine .all r l b rs p q ?_ (by rw [← hf.lists]; exact hl) hp ih
    rcases hf.objs r with e | ⟨_, _, _, _, _, _, e, _⟩
    · rw [← e]; exact ho
    · rw [e] at ho; cases ho
  | any r l b rs p q ho hl hp _ ih =>
    refine .any r l b rs p q ?_ (by rw [← hf.lists]; exact hl) hp ih
    rcases hf.objs r with e | ⟨_, _, _, _, _, _, e, _⟩
    · rw [← e]; exact ho
    · rw [e] at ho; cases ho

/-- Representations keep their dictionaries. -/
theorem owns_back {M : List Sec → Prop} {h h' : Objects E} (hf : Frame M h h') {r v : Nat} (ho : Owns h' r v) : Owns h r v := by
  obtain ⟨q, lhs, bases, vars, b, h1, h2⟩ := ho
  refine ⟨q, ?_⟩
  rcases hf.objs q with e | ⟨a1, a2, a3, a4, a5, e1, e2, _⟩
  · exact ⟨lhs, bases, vars, b, frame_reaches hf h1, by rw [← e]; exact h2⟩
  · rw [e2] at h2
    injection h2 with h2
    simp only [Obj.rep.injEq] at h2
    obtain ⟨rfl, rfl, rfl, rfl, _⟩ := h2
    exact ⟨a1, a2, a3, a5, frame_reaches hf h1, e1⟩

/-- What a call of `get_prover` changes. -/
def Wrote (A : Prop) (R : Nat → Prop) (σ : Store) (d : Dict Int) (h h' : Objects E) (w w' : World) : Prop :=
  Frame (fun _ => True) h h' ∧ Writes R (A ∧ w.store = σ) σ d h h' ∧ (A → w.store = σ → w'.store = σ)

theorem Wrote.refl {A : Prop} (R : Nat → Prop) (σ : Store) (d : Dict Int) (h : Objects E) {w w' : World} (hw : A → w.store = σ → w'.store = σ) :
    Wrote A R σ d h h w w' := ⟨Frame.refl _ h, Writes.refl _ _ _ _ h, hw⟩

theorem Wrote.mono {A : Prop} {R R' : Nat → Prop} {σ : Store} {d : Dict Int} {h h' : Objects E} {w w' : World}
    (hR : ∀ v, R v → R' v) (hw : Wrote A R σ d h h' w w') : Wrote A R' σ d h h' w w' := ⟨hw.1, hw.2.1.mono hR, hw.2.2⟩

theorem Wrote.trans {A : Prop} {R : Nat → Prop} {σ : Store} {d : Dict Int} {h h' h'' : Objects E} {w w' w'' : World}
    (h1 : Wrote A R σ d h h' w w') (h2 : Wrote A R σ d h' h'' w' w'') : Wrote A R σ d h h'' w w'' := by
  refine ⟨h1.1.trans h2.1, h1.2.1.trans ?_, fun a e => h2.2.2 a (h1.2.2 a e)⟩
  intro v vals e
  obtain ⟨vals', e1, e2⟩ := h2.2.1 v vals e
  exact ⟨vals', e1, e2.imp id fun x => ⟨x.1, fun s => x.2 ⟨s.1, h1.2.2 s.1 s.2⟩⟩⟩

theorem wrote_all {A : Prop} {σ : Store} {d : Dict Int} {get : Objects E → Nat → PM (Option (HProver E) × Objects E)}
    (hget : ∀ h r w p h' w', get h r w = .ok ((p, h'), w') → Wrote A (Owns h r) σ d h h' w w') :
    ∀ (rs : List Nat) (h h' : Objects E) (ps : List (Option (HProver E))) (w w' : World),
      Objects.getAll get rs h w = .ok ((ps, h'), w') → Wrote A (fun v => ∃ r ∈ rs, Owns h r v) σ d h h' w w'
  | [], h, h', ps, w, w', e => by
    simp only [Objects.getAll, pm_pure_iff, Prod.mk.injEq] at e
    obtain ⟨⟨_, rfl⟩, rfl⟩ := e
    exact Wrote.refl _ _ _ h fun _ => id
  | r :: rs, h, h', ps, w, w', e => by
    simp only [Objects.getAll] at e
    obtain ⟨⟨p, h1⟩, w1, e1, e⟩ := pm_bind.mp e
    obtain ⟨⟨ps1, h2⟩, w2, e2, e⟩ := pm_bind.mp e
    simp only [pm_pure_iff, Prod.mk.injEq] at e
    obtain ⟨⟨_, rfl⟩, rfl⟩ := e
    have g1 := hget h r w p h1 w1 e1
    have g2 := wrote_all hget rs h1 h2 ps1 w1 w2 e2
    refine (g1.mono fun q hq => ⟨r, by simp, hq⟩).trans (g2.mono ?_)
    rintro q ⟨r', hr', hq⟩
    exact ⟨r', by simp [hr'], owns_back g1.1 hq⟩

theorem choice_store {possible : List Nat} {i : Nat} {w w' : World} (h : PTree.choice possible w = .ok (i, w')) :
    w'.store = w.store := (choice_mem h).2

theorem wrote_any {A : Prop} {σ : Store} {d : Dict Int} {get : Objects E → Nat → PM (Option (HProver E) × Objects E)}
    (hget : ∀ h r w p h' w', get h r w = .ok ((p, h'), w') → Wrote A (Owns h r) σ d h h' w w') (rs : List Nat) :
    ∀ (fuel : Nat) (possible : List Nat) (h h' : Objects E) (x : Option (Nat × HProver E)) (w w' : World),
      Objects.getAny get rs fuel possible h w = .ok ((x, h'), w') → Wrote A (fun v => ∃ r ∈ rs, Owns h r v) σ d h h' w w'
  | 0, possible, h, h', x, w, w', e => by
    simp only [Objects.getAny, pm_pure_iff, Prod.mk.injEq] at e
    obtain ⟨⟨_, rfl⟩, rfl⟩ := e
    exact Wrote.refl _ _ _ h fun _ => id
  | fuel + 1, possible, h, h', x, w, w', e => by
    simp only [Objects.getAny] at e
    split at e
    · simp only [pm_pure_iff, Prod.mk.injEq] at e
      obtain ⟨⟨_, rfl⟩, rfl⟩ := e
      exact Wrote.refl _ _ _ h fun _ => id
    · obtain ⟨i, w1, e1, e⟩ := pm_bind.mp e
      have g0 : Wrote A (fun v => ∃ r ∈ rs, Owns h r v) σ d h h w w1 :=
        Wrote.refl _ _ _ h fun _ hw => (choice_store e1).trans hw
      cases hi : rs[i]? with
      | none => simp only [hi] at e; cases e
      | some r =>
        simp only [hi] at e
        obtain ⟨⟨p, h1⟩, w2, e2, e⟩ := pm_bind.mp e
        have hm := List.mem_of_getElem? hi
        have g1 := hget h r w1 p h1 w2 e2
        cases p with
        | some p =>
          simp only [pm_pure_iff, Prod.mk.injEq] at e
          obtain ⟨⟨_, rfl⟩, rfl⟩ := e
          exact g0.trans (g1.mono fun q hq => ⟨r, hm, hq⟩)
        | none =>
          simp only at e
          have g2 := wrote_any hget rs fuel _ h1 h' x w2 w' e
          refine g0.trans ((g1.mono fun q hq => ⟨r, hm, hq⟩).trans (g2.mono ?_))
          rintro q ⟨r', hr', hq⟩
          exact ⟨r', hr', owns_back g1.1 hq⟩

theorem setup_store {σ : Store} (i : Nat) : ∀ (ts : List (Core E)) (index : Nat) (w w' : World) (x : List (Core E) × List (Sim E)),
    PTree.setupSimulations i ts index w = .ok (x, w') → w.store = σ → w'.store = σ
  | [], index, w, w', x, e, hw => by
    simp only [PTree.setupSimulations, pm_pure_iff, Prod.mk.injEq] at e
    exact e.2 ▸ hw
  | t :: ts, index, w, w', x, e, hw => by
    simp only [PTree.setupSimulations] at e
    split at e
    · obtain ⟨⟨a, b⟩, w1, e1, e⟩ := pm_bind.mp e
      rw [pm_pure_iff, Prod.mk.injEq] at e
      exact e.2 ▸ setup_store i ts _ w w1 _ e1 hw
    · obtain ⟨t', w1, e1, e⟩ := pm_bind.mp e
      obtain ⟨s, w2, e2, e⟩ := pm_bind.mp e
      obtain ⟨⟨a, b⟩, w3, e3, e4⟩ := pm_bind.mp e
      rw [pm_pure_iff, Prod.mk.injEq] at e4
      rw [prepareSim_core] at e1
      simp only [Except.ok.injEq, Prod.mk.injEq] at e1
      obtain ⟨rfl, rfl⟩ := e1
      have k2 := frame_simulate (J := fun s => s = σ) (fun l d c => frame_simulate_dlrep l d c) t none none w s w2 hw e2
      exact e4.2 ▸ setup_store i ts _ w2 w3 _ e3 k2

theorem wrote {A : Prop} {σ : Store} {d : Dict Int} (hA : A → updateSecretValues σ d = σ ∧ d.Uniq σ) :
    ∀ (n : Nat) (h : Objects E) (r : Nat) (w : World) (p : Option (HProver E)) (h' : Objects E)
    (w' : World), Objects.getProver d n h r w = .ok ((p, h'), w') → Wrote A (Owns h r) σ d h h' w w'
  | 0, h, r, w, p, h', w', e => by simp only [Objects.getProver] at e; cases e
  | n + 1, h, r, w, p, h', w', e => by
    simp only [Objects.getProver] at e
    cases ho : h.objs[r]? with
    | none => simp only [ho] at e; cases e
    | some o =>
      cases o with
      | rep lhs bases vars v b =>
        simp only [ho] at e
        cases hv : h.dicts[v]? with
        | none => simp only [hv] at e; cases e
        | some vals =>
          simp only [hv] at e
          rw [pm_getStore_bind] at e
          have hrl : r < h.objs.length := (List.getElem?_eq_some_iff.mp ho).1
          have hvl : v < h.dicts.length := (List.getElem?_eq_some_iff.mp hv).1
          have key : Wrote A (Owns h r) σ d h ⟨h.objs.set r (.rep lhs bases vars v true),
              h.dicts.set v (Dict.update w.store vals d), h.lists⟩ w w := by
            refine ⟨⟨rfl, by simp, fun r' => ?_⟩, fun v' vals1 e1 => ?_, fun _ => id⟩
            · by_cases hr : r = r'
              · subst hr
                exact .inr ⟨lhs, bases, vars, v, b, ho, by simp [hrl], trivial⟩
              · exact .inl (by simp [hr])
            · by_cases hvv : v = v'
              · subst hvv
                rw [hv] at e1
                injection e1 with e1
                subst e1
                refine ⟨Dict.update w.store vals d, by simp [hvl], .inr ⟨⟨r, lhs, bases, vars, b, .self r, ho⟩, fun hw x => ?_⟩⟩
                rw [hw.2]
                exact update_fill (hA hw.1).2 _ x
              · exact ⟨vals1, by simp [hvv, e1], .inl rfl⟩
          split at e
          · simp only [pm_pure_iff, Prod.mk.injEq] at e
            obtain ⟨⟨_, rfl⟩, rfl⟩ := e
            exact key
          · simp only [pm_pure_iff, Prod.mk.injEq] at e
            obtain ⟨⟨_, rfl⟩, rfl⟩ := e
            exact key
      | all l b =>
        simp only [ho] at e
        cases hl : h.lists[l]? with
        | none => simp only [hl] at e; cases e
        | some rs =>
          simp only [hl, pm_getStore_bind, pm_setStore_bind] at e
          have g0 : Wrote A (Owns h r) σ d h h w { w with store := updateSecretValues w.store d } :=
            Wrote.refl _ _ _ h fun a hw => by rw [← (hA a).1, ← hw]
          split at e
          · simp only [pm_pure_iff, Prod.mk.injEq] at e
            obtain ⟨⟨_, rfl⟩, rfl⟩ := e
            exact g0
          · obtain ⟨⟨ps, h1⟩, w1, e1, e⟩ := pm_bind.mp e
            have g1 := wrote_all (wrote hA n) rs h h1 ps _ w1 e1
            simp only at e
            cases hs : PTree.allSome ps with
            | none => simp only [hs] at e; cases e
            | some ps' =>
              simp only [hs, pm_pure_iff, Prod.mk.injEq] at e
              obtain ⟨⟨_, rfl⟩, rfl⟩ := e
              refine g0.trans (g1.mono ?_)
              rintro v ⟨r', hr', q, lhs, bases, vars, b', hq, ho'⟩
              exact ⟨q, lhs, bases, vars, b', .all r l b rs r' q ho hl hr' hq, ho'⟩
      | any l b =>
        simp only [ho] at e
        cases hl : h.lists[l]? with
        | none => simp only [hl] at e; cases e
        | some rs =>
          simp only [hl, pm_getStore_bind, pm_setStore_bind] at e
          have g0 : Wrote A (Owns h r) σ d h h w { w with store := updateSecretValues w.store d } :=
            Wrote.refl _ _ _ h fun a hw => by rw [← (hA a).1, ← hw]
          split at e
          · simp only [pm_pure_iff, Prod.mk.injEq] at e
            obtain ⟨⟨_, rfl⟩, rfl⟩ := e
            exact g0
          · obtain ⟨⟨x, h1⟩, w1, e1, e⟩ := pm_bind.mp e
            have g1 := g0.trans ((wrote_any (wrote hA n) rs _ _ h h1 x _ w1 e1).mono (R' := Owns h r) (by
              rintro v ⟨r', hr', q, lhs, bases, vars, b', hq, ho'⟩
              exact ⟨q, lhs, bases, vars, b', .any r l b rs r' q ho hl hr' hq, ho'⟩))
            cases x with
            | none =>
              simp only [pm_pure_iff, Prod.mk.injEq] at e
              obtain ⟨⟨_, rfl⟩, rfl⟩ := e
              exact g1
            | some x =>
              obtain ⟨i, p1⟩ := x
              simp only at e
              cases hs : PTree.allSome (rs.map (h1.read n)) with
              | none => simp only [hs] at e; cases e
              | some ts =>
                simp only [hs] at e
                obtain ⟨⟨_, sims⟩, w2, e2, e⟩ := pm_bind.mp e
                simp only [pm_pure_iff, Prod.mk.injEq] at e
                obtain ⟨⟨_, rfl⟩, rfl⟩ := e
                exact ⟨g1.1, g1.2.1, fun a hw => setup_store i ts 0 _ _ _ e2 (g1.2.2 a hw)⟩

/-! ### Answers -/

theorem respond_leaf {σ : Store} {vals vals' : Dict Int} (hv : ∀ x, Dict.get? σ vals' x = Dict.get? σ vals x) (m : Nat) (c : Int) :
    ∀ (vars : List Sec) (ks : List Int), DLRepProver.respondGo σ vals' m c vars ks = DLRepProver.respondGo σ vals m c vars ks
  | [], [] => rfl
  | [], _ :: _ => rfl
  | _ :: _, [] => rfl
  | x :: xs, k :: ks => by
    simp only [DLRepProver.respondGo, respond_leaf hv m c xs ks, Dict.get, hv]

theorem bind_congr {α β : Type} {x y : PM α} {f g : α → PM β} {w : World} (h : x w = y w)
    (hf : ∀ a w', y w = .ok (a, w') → f a w' = g a w') : (x >>= f) w = (y >>= g) w := by
  show (x w >>= fun r => f r.1 r.2) = (y w >>= fun r => g r.1 r.2)
  rw [h]
  cases hy : y w with
  | error e => rfl
  | ok r => exact hf r.1 r.2 hy

mutual
theorem respond_keeps : ∀ (p : CoreProver E) (c : Int) (w w' : World) (r : Val E),
    PTree.computeResponse p c w = .ok (r, w') → w' = w
  | .leaf p, c, w, w', r, e => by
    simp only [PTree.computeResponse] at e
    change DLRepProver.computeResponse p c w = _ at e
    unfold DLRepProver.computeResponse at e
    rw [pm_getStore_bind] at e
    cases hb : p.stmt.bases with
    | nil => simp only [hb] at e; cases e
    | cons b bs =>
      cases hk : p.ks with
      | none => simp only [hb, hk] at e; cases e
      | some ks =>
        simp only [hb, hk] at e
        obtain ⟨a, w1, e1, e⟩ := pm_bind.mp e
        rw [pm_pure_iff, Prod.mk.injEq] at e
        rw [liftE_iff] at e1
        exact e.2.symm.trans e1.2.symm
  | .and b ps, c, w, w', r, e => by
    simp only [PTree.computeResponse] at e
    obtain ⟨a, w1, e1, e⟩ := pm_bind.mp e
    rw [pm_pure_iff, Prod.mk.injEq] at e
    exact e.2.symm.trans (respondL_keeps ps c w w1 a e1)
  | .or b i ts p sims, c, w, w', r, e => by
    simp only [PTree.computeResponse] at e
    obtain ⟨a, w1, e1, e⟩ := pm_bind.mp e
    obtain ⟨a2, w2, e2, e⟩ := pm_bind.mp e
    obtain ⟨a3, w3, e3, e⟩ := pm_bind.mp e
    rw [pm_pure_iff, Prod.mk.injEq] at e
    rw [liftE_iff] at e2 e3
    exact e.2.symm.trans (e3.2.symm.trans (e2.2.symm.trans (respond_keeps p _ w w1 a e1)))
theorem respondL_keeps : ∀ (ps : List (CoreProver E)) (c : Int) (w w' : World) (rs : List (Val E)),
    PTree.computeResponseL ps c w = .ok (rs, w') → w' = w
  | [], c, w, w', r, e => by
    simp only [PTree.computeResponseL] at e
    rw [pm_pure_iff, Prod.mk.injEq] at e
    exact e.2.symm
  | p :: ps, c, w, w', r, e => by
    simp only [PTree.computeResponseL] at e
    obtain ⟨a, w1, e1, e⟩ := pm_bind.mp e
    obtain ⟨a2, w2, e2, e⟩ := pm_bind.mp e
    rw [pm_pure_iff, Prod.mk.injEq] at e
    exact e.2.symm.trans ((respondL_keeps ps c w1 w2 a2 e2).trans (respond_keeps p c w w1 a e1))
end

/-- The same answers in all states with this store. -/
def SameAnswers (σ : Store) (p p' : CoreProver E) : Prop :=
  ∀ c w, w.store = σ → PTree.computeResponse p' c w = PTree.computeResponse p c w

mutual
/-- What a prover answers depends on what its dictionaries have for each secret. -/
theorem see_same {σ : Store} {h h' : Objects E} (hg : Grown (fun _ _ => True) h h') : ∀ (hp : HProver E),
    (∀ v ∈ dictsOf hp, ∀ vals, h.dicts[v]? = some vals → ∃ vals', h'.dicts[v]? = some vals' ∧
      ∀ x, Dict.get? σ vals' x = Dict.get? σ vals x) → ∀ p, hp.see h = some p →
    ∃ p', hp.see h' = some p' ∧ SameAnswers σ p p'
  | .rep r v ks, hv, p, hs => by
    simp only [HProver.see] at hs ⊢
    cases hr : h.read 1 r with
    | none => simp only [hr] at hs; cases hs
    | some t =>
      obtain ⟨t', hr', ha⟩ := read_grown (M := True) (N := True) hg 1 r t hr (fun _ _ _ _ _ => ⟨fun _ => trivial, fun _ => trivial⟩)
      cases hd : h.dicts[v]? with
      | none => cases t <;> simp [hr, hd] at hs
      | some vals =>
        obtain ⟨vals', hd', hl⟩ := hv v (by simp [dictsOf]) vals hd
        cases ha with
        | leaf s s' hn _ =>
          simp only [hr, hd, Option.some.injEq] at hs
          subst hs
          simp only [hr', hd']
          refine ⟨_, rfl, fun c w hw => ?_⟩
          have h1 : s'.bases = s.bases := by have := congrArg DLRep.bases hn; exact this
          have h2 : s'.secretVars = s.secretVars := by have := congrArg DLRep.secretVars hn; exact this
          show DLRepProver.computeResponse _ c w = DLRepProver.computeResponse _ c w
          unfold DLRepProver.computeResponse
          simp only [pm_getStore_bind, h1, h2, hw, respond_leaf hl]
        | and => simp [hr] at hs
        | or => simp [hr] at hs
  | .all r subs, hv, p, hs => by
    simp only [HProver.see] at hs ⊢
    cases ho : h.objs[r]? with
    | none => simp only [ho] at hs; cases hs
    | some o =>
      cases o with
      | rep => simp only [ho] at hs; cases hs
      | any => simp only [ho] at hs; cases hs
      | all l b =>
        simp only [ho, Option.map_eq_some_iff] at hs
        obtain ⟨ps, hs, rfl⟩ := hs
        obtain ⟨ps', h1, h2⟩ := seeL_same hg subs (by simpa [dictsOf] using hv) ps hs
        obtain ⟨b', ho'⟩ : ∃ b', h'.objs[r]? = some (.all l b') := by
          rcases hg.objs r _ ho with e | ⟨_, b', e⟩
          · exact ⟨b, e⟩
          · exact ⟨b', e⟩
        simp only [ho', h1, Option.map_some]
        refine ⟨_, rfl, fun c w hw => ?_⟩
        simp only [PTree.computeResponse]
        exact bind_congr (h2 c w hw) fun _ _ _ => rfl
  | .any r i sub sims, hv, p, hs => by
    simp only [HProver.see] at hs ⊢
    cases ho : h.objs[r]? with
    | none => simp only [ho] at hs; cases hs
    | some o =>
      cases o with
      | rep => simp only [ho] at hs; cases hs
      | all => simp only [ho] at hs; cases hs
      | any l b =>
        simp only [ho] at hs
        cases hl : h.lists[l]? with
        | none => simp [hl] at hs
        | some rs =>
          simp only [hl, Option.bind_some] at hs
          cases ht : PTree.allSome (rs.map h.tree) with
          | none => simp [ht] at hs
          | some ts =>
            simp only [ht, Option.bind_some, Option.map_eq_some_iff] at hs
            obtain ⟨q, hs, rfl⟩ := hs
            obtain ⟨q', h1, h2⟩ := see_same hg sub (by simpa [dictsOf] using hv) q hs
            obtain ⟨b', ho'⟩ : ∃ b', h'.objs[r]? = some (.any l b') := by
              rcases hg.objs r _ ho with e | ⟨_, b', e⟩
              · exact ⟨b, e⟩
              · exact ⟨b', e⟩
            obtain ⟨ts', h3, h4, _⟩ := reads_of (f := h'.tree) (rs := rs) (Q := fun _ _ => True) (by
              intro j r' hj
              obtain ⟨t, _, e2⟩ := reads_get ht hj
              obtain ⟨t', e3, _⟩ := tree_grown (M := True) (N := True) hg e2 (fun _ _ _ _ _ => ⟨fun _ => trivial, fun _ => trivial⟩)
              exact ⟨t', e3, trivial⟩)
            simp only [ho', hg.lists l rs hl, h3, h1, Option.bind_some, Option.map_some]
            refine ⟨_, rfl, fun c w hw => ?_⟩
            have hlen : ts'.length = ts.length := h4.trans (reads_length ht).symm
            simp only [PTree.computeResponse, hlen]
            exact bind_congr (h2 _ w hw) fun _ _ _ => rfl
theorem seeL_same {σ : Store} {h h' : Objects E} (hg : Grown (fun _ _ => True) h h') : ∀ (hps : List (HProver E)),
    (∀ v ∈ dictsOfL hps, ∀ vals, h.dicts[v]? = some vals → ∃ vals', h'.dicts[v]? = some vals' ∧
      ∀ x, Dict.get? σ vals' x = Dict.get? σ vals x) → ∀ ps, HProver.seeL h hps = some ps →
    ∃ ps', HProver.seeL h' hps = some ps' ∧
      ∀ c w, w.store = σ → PTree.computeResponseL ps' c w = PTree.computeResponseL ps c w
  | [], _, ps, hs => by
    simp only [HProver.seeL, Option.some.injEq] at hs
    subst hs
    exact ⟨[], rfl, fun _ _ _ => rfl⟩
  | hp :: hps, hv, ps, hs => by
    simp only [HProver.seeL] at hs ⊢
    cases h1 : hp.see h with
    | none => simp [h1] at hs
    | some p =>
      simp only [h1, Option.bind_some, Option.map_eq_some_iff] at hs
      obtain ⟨ps1, hs, rfl⟩ := hs
      obtain ⟨p', e1, e2⟩ := see_same hg hp (fun v hm => hv v (by simp [dictsOfL, hm])) p h1
      obtain ⟨ps', e3, e4⟩ := seeL_same hg hps (fun v hm => hv v (by simp [dictsOfL, hm])) ps1 hs
      simp only [e1, e3, Option.bind_some, Option.map_some]
      refine ⟨_, rfl, fun c w hw => ?_⟩
      simp only [PTree.computeResponseL]
      refine bind_congr (e2 c w hw) fun a w1 k1 => ?_
      rw [respond_keeps p c w w1 a k1]
      exact bind_congr (e4 c w hw) fun _ _ _ => rfl
end

/-! ### Calls -/

theorem dicts_compose {mk : Nat → Bool → Obj E} {h h' : Objects E} {rs : List Nat} {r : Nat}
    (e : Objects.compose mk h rs = .ok (r, h')) : h'.dicts = h.dicts := by
  unfold Objects.compose at e
  split at e
  · cases e
  · cases hc : h.copies rs with
    | error x => rw [hc] at e; cases e
    | ok os =>
      rw [hc] at e
      simp only [bind_ok, Except.ok.injEq, Prod.mk.injEq] at e
      exact e.2 ▸ rfl

/-- Only dictionaries of the objects whose `get_prover` is called change. -/
theorem dicts_call {h h' : Objects E} {rs ms : List Nat} (hc : Call h rs ms h') {v : Nat} {vals : Dict Int}
    (hv : h.dicts[v]? = some vals) (hn : ∀ r ∈ rs, ¬ Owns h r v) : h'.dicts[v]? = some vals := by
  have key : ∀ {r : Nat} {d : Dict Int} {w w' : World} {p : Option (HProver E)} {h' : Objects E},
      h.proverOf r d w = .ok ((p, h'), w') → ¬ Owns h r v → h'.dicts[v]? = some vals := by
    intro r d w w' p h' e hno
    have hw := wrote (A := False) (σ := w.store) (fun a => a.elim) _ h r w p h' w' e
    obtain ⟨vals', e1, e2⟩ := hw.2.1 v vals hv
    rcases e2 with rfl | e2
    · exact e1
    · exact (hno e2.1).elim
  have key2 : ∀ {r : Nat} {h' : Objects E}, Left (Reaches h r) h h' → ¬ Owns h r v → h'.dicts[v]? = some vals := by
    intro r h' hl hno
    rcases hl.dicts v with e | ⟨⟨q, a1, a2, a3, a4, e1, e2⟩, _⟩
    · exact e.trans hv
    · exact (hno ⟨q, a1, a2, a3, a4, e1, e2⟩).elim
  cases hc with
  | getProver r d w w' p _ hr => exact key hr (hn r (by simp))
  | getProverRaises r d w w' x _ hr =>
    have hl := left_prover r d (h, w)
    rw [hr] at hl
    exact key2 hl (hn r (by simp))
  | proveRaises env r d msg w w' x _ hr =>
    have hl := left_prove env r d msg (h, w)
    rw [hr] at hl
    exact key2 hl (hn r (by simp))
  | simulateRaises env r c w w' x _ hr =>
    have hl := simulate_leaves env r c (h, w)
    rw [hr] at hl
    simp only at hl
    subst hl
    exact hv
  | prove env r d msg w w' π _ hr =>
    obtain ⟨p, w1, e⟩ := prove_prover hr
    exact key e (hn r (by simp))
  | simulate env r c w w' a _ hr =>
    unfold Objects.simulate at hr
    cases ht : (h.setSimulated r true).tree r with
    | none => simp only [ht] at hr; cases hr
    | some t =>
      simp only [ht] at hr
      obtain ⟨⟨a1, a2, a3⟩, w1, e1, e⟩ := pm_bind.mp hr
      simp only [pm_pure_iff, Prod.mk.injEq] at e
      obtain ⟨⟨_, rfl⟩, _⟩ := e
      exact hv
  | setSimulated r b => exact hv
  | rep σ lhs secrets bases b r _ hr =>
    unfold Objects.newRep at hr
    cases hm : mkDLRep σ lhs secrets bases b with
    | error x => rw [hm] at hr; cases hr
    | ok s =>
      rw [hm] at hr
      simp only [bind_ok, Except.ok.injEq, Prod.mk.injEq] at hr
      obtain ⟨_, rfl⟩ := hr
      exact getElem?_append_of hv
  | all rs r _ hr => rw [dicts_compose hr]; exact hv
  | any rs r _ hr => rw [dicts_compose hr]; exact hv
  | opAnd a b r _ hr => rw [dicts_compose hr]; exact hv
  | opOr a b r _ hr => rw [dicts_compose hr]; exact hv

theorem dicts_calls {D : List Nat} {Q : Objects E → Nat → Prop} {h h' : Objects E}
    (hc : Calls (fun h q => ∀ v ∈ D, ¬ Owns h q v) Q h h') {v : Nat} {vals : Dict Int}
    (hm : v ∈ D) (hv : h.dicts[v]? = some vals) : h'.dicts[v]? = some vals := by
  induction hc with
  | none h => exact hv
  | more h h1 h2 rs ms hc hP _ _ ih => exact ih (dicts_call hc hv fun r hr => hP r hr v hm)

theorem respond_same {σ : Store} {h h' : Objects E} (hg : Grown (fun _ _ => True) h h') {hp : HProver E}
    (hv : ∀ v ∈ dictsOf hp, ∀ vals, h.dicts[v]? = some vals → ∃ vals', h'.dicts[v]? = some vals' ∧
      ∀ x, Dict.get? σ vals' x = Dict.get? σ vals x) {p : CoreProver E} (hs : hp.see h = some p) {c : Int} {w : World}
    (hw : w.store = σ) : hp.respond h' c w = hp.respond h c w := by
  obtain ⟨p', h1, h2⟩ := see_same hg hp hv p hs
  unfold HProver.respond
  rw [h1, hs]
  exact h2 c w hw

theorem Calls.imp {P P' Q Q' : Objects E → Nat → Prop} (hP : ∀ h r, P h r → P' h r) (hQ : ∀ h r, Q h r → Q' h r)
    {h h' : Objects E} (hc : Calls P Q h h') : Calls P' Q' h h' := by
  induction hc with
  | none h => exact .none h
  | more h h1 h2 rs ms hc hp hq _ ih => exact .more h h1 h2 rs ms hc (fun r hr => hP h r (hp r hr)) (fun m hm => hQ h m (hq m hm)) ih

theorem samePattern_same {α : Type} (l : List α) : SamePattern l l := by
  refine ⟨rfl, fun i j a b a' b' h1 h2 h3 h4 => ?_⟩
  rw [h1] at h3
  rw [h2] at h4
  cases h3; cases h4
  exact Iff.rfl

/-! ### New compositions -/

theorem compose_keeps {mk : Nat → Bool → Obj E} {h h' : Objects E} {rs : List Nat} {r q : Nat} {t : Core E}
    (e : Objects.compose mk h rs = .ok (r, h')) (hq : h.tree q = some t) : h'.tree q = some t := by
  unfold Objects.compose at e
  split at e
  · cases e
  · cases hc : h.copies rs with
    | error x => rw [hc] at e; cases e
    | ok os =>
      rw [hc] at e
      simp only [bind_ok, Except.ok.injEq, Prod.mk.injEq] at e
      obtain ⟨_, rfl⟩ := e
      have := read_append (os ++ [mk h.lists.length false]) [] [List.range' h.objs.length os.length] _ q t hq
      rw [← List.append_assoc, List.append_nil] at this
      exact read_mono _ _ _ _ _ (by simp) this

theorem reaches_old {h : Objects E} : ∀ (n r : Nat) (t : Core E), h.read n r = some t → ∀ q, Reaches h r q → q < h.objs.length
  | 0, _, _, hr, _, _ => by simp [Objects.read] at hr
  | n + 1, r, t, hr, q, hq => by
    simp only [Objects.read] at hr
    cases ho : h.objs[r]? with
    | none => simp [ho] at hr
    | some o =>
      have hlt := (List.getElem?_eq_some_iff.mp ho).1
      cases hq with
      | self => exact hlt
      | all r l b rs p q ho' hl hp hq =>
        simp only [ho'] at hr
        simp only [hl, Option.bind_some, Option.map_eq_some_iff] at hr
        obtain ⟨ts, hts, _⟩ := hr
        obtain ⟨i, hi⟩ := List.getElem?_of_mem hp
        obtain ⟨t', _, h2⟩ := reads_get hts hi
        exact reaches_old n p t' h2 q hq
      | any r l b rs p q ho' hl hp hq =>
        simp only [ho'] at hr
        simp only [hl, Option.bind_some, Option.map_eq_some_iff] at hr
        obtain ⟨ts, hts, _⟩ := hr
        obtain ⟨i, hi⟩ := List.getElem?_of_mem hp
        obtain ⟨t', _, h2⟩ := reads_get hts hi
        exact reaches_old n p t' h2 q hq

/-- A composition of representations shares no part with the objects there were before. -/
theorem compose_fresh {mk : Nat → Bool → Obj E} (hmk : mk = Obj.all ∨ mk = Obj.any) {h h' : Objects E} {rs : List Nat}
    {r : Nat} {ts : List (Core E)} (hts : rs.map h.tree = ts.map some)
    (hrep : ∀ p ∈ rs, ∃ lhs bases vars v b, h.objs[p]? = some (Obj.rep lhs bases vars v b))
    (e : Objects.compose mk h rs = .ok (r, h')) {q : Nat} {t : Core E} (hq : h.tree q = some t) : NoCommonPart h' q r := by
  rcases compose_reads (mk := mk) hts with ⟨_, h2⟩ | ⟨h1, h'', l, h2, h3, h4, h5, h6, h7, _⟩
  · rw [h2] at e; cases e
  rw [h2] at e
  simp only [Except.ok.injEq, Prod.mk.injEq] at e
  obtain ⟨rfl, rfl⟩ := e
  have hg : Grown (fun _ _ => True) h h'' := grown_compose _ h2
  have hleaf : ∀ p ∈ List.range' h.objs.length rs.length, ∀ x, Reaches h'' p x → x = p := by
    intro p hp x hx
    rw [List.mem_range'] at hp
    obtain ⟨i, hi, rfl⟩ := hp
    obtain ⟨a, ha⟩ : ∃ a, rs[i]? = some a := ⟨_, List.getElem?_eq_getElem hi⟩
    obtain ⟨a1, a2, a3, a4, a5, hob⟩ := hrep a (List.mem_of_getElem? ha)
    have := h7 i a ha
    rw [hob] at this
    rw [Nat.one_mul] at hx ⊢
    cases hx with
    | self => rfl
    | all _ _ _ _ _ _ ho => rw [this] at ho; cases ho
    | any _ _ _ _ _ _ ho => rw [this] at ho; cases ho
  intro x hx1 hx2
  have hlt := reaches_old _ _ _ hq x (reaches_back hg _ _ _ hq x hx1)
  have hge : h.objs.length ≤ x := by
    cases hx2 with
    | self => omega
    | all _ l' _ rs' p _ ho hl hp hr =>
      have : l' = l ∧ rs' = List.range' h.objs.length rs.length := by
        rw [h3] at ho
        rcases hmk with rfl | rfl
        · simp only [Option.some.injEq, Obj.all.injEq] at ho
          obtain ⟨rfl, _⟩ := ho
          rw [h4] at hl
          exact ⟨rfl, (Option.some.inj hl).symm⟩
        · simp at ho
      rw [this.2] at hp
      rw [hleaf p hp x hr]
      rw [List.mem_range'] at hp
      obtain ⟨i, hi, rfl⟩ := hp
      omega
    | any _ l' _ rs' p _ ho hl hp hr =>
      have : l' = l ∧ rs' = List.range' h.objs.length rs.length := by
        rw [h3] at ho
        rcases hmk with rfl | rfl
        · simp at ho
        · simp only [Option.some.injEq, Obj.any.injEq] at ho
          obtain ⟨rfl, _⟩ := ho
          rw [h4] at hl
          exact ⟨rfl, (Option.some.inj hl).symm⟩
      rw [this.2] at hp
      rw [hleaf p hp x hr]
      rw [List.mem_range'] at hp
      obtain ⟨i, hi, rfl⟩ := hp
      omega
  omega

/-! ### Dictionaries of new provers -/

/-- The dictionaries of the prover have the values of `d`. -/
def Has (σ : Store) (d : Dict Int) (h : Objects E) (D : List Nat) : Prop :=
  ∀ v ∈ D, ∃ vals, h.dicts[v]? = some vals ∧ ∀ x a, Dict.get? σ d x = some a → Dict.get? σ vals x = some a

theorem Has.writes {σ : Store} {d : Dict Int} {h h' : Objects E} {D : List Nat} {R : Nat → Prop} {S : Prop}
    (hh : Has σ d h D) (hS : S) (hw : Writes R S σ d h h') : Has σ d h' D := by
  intro v hv
  obtain ⟨vals, h1, h2⟩ := hh v hv
  obtain ⟨vals', h3, h4⟩ := hw v vals h1
  refine ⟨vals', h3, fun x a hx => ?_⟩
  rcases h4 with rfl | h4
  · exact h2 x a hx
  · rw [h4.2 hS x, hx]; rfl

theorem has_all {σ : Store} {d : Dict Int} {get : Objects E → Nat → PM (Option (HProver E) × Objects E)}
    (hget : ∀ h r w p h' w', get h r w = .ok ((p, h'), w') → Wrote True (Owns h r) σ d h h' w w')
    (hhas : ∀ h r w p h' w', get h r w = .ok ((some p, h'), w') → w.store = σ → Has σ d h' (dictsOf p)) :
    ∀ (rs : List Nat) (h h' : Objects E) (ps : List (Option (HProver E))) (w w' : World),
      Objects.getAll get rs h w = .ok ((ps, h'), w') → w.store = σ → ∀ p, some p ∈ ps → Has σ d h' (dictsOf p)
  | [], h, h', ps, w, w', e, hw, q, hq => by
    simp only [Objects.getAll, pm_pure_iff, Prod.mk.injEq] at e
    obtain ⟨⟨rfl, rfl⟩, rfl⟩ := e
    simp at hq
  | r :: rs, h, h', ps, w, w', e, hw, q, hq => by
    simp only [Objects.getAll] at e
    obtain ⟨⟨p, h1⟩, w1, e1, e⟩ := pm_bind.mp e
    obtain ⟨⟨ps1, h2⟩, w2, e2, e⟩ := pm_bind.mp e
    simp only [pm_pure_iff, Prod.mk.injEq] at e
    obtain ⟨⟨rfl, rfl⟩, rfl⟩ := e
    have g1 := hget h r w p h1 w1 e1
    have hw1 := g1.2.2 trivial hw
    have g2 := wrote_all hget rs h1 h2 ps1 w1 w2 e2
    rcases List.mem_cons.mp hq with hq | hq
    · rw [← hq] at e1
      exact (hhas h r w q h1 w1 e1 hw).writes ⟨trivial, hw1⟩ g2.2.1
    · exact has_all hget hhas rs h1 h2 ps1 w1 w2 e2 hw1 q hq

theorem has_any {σ : Store} {d : Dict Int} {get : Objects E → Nat → PM (Option (HProver E) × Objects E)}
    (hget : ∀ h r w p h' w', get h r w = .ok ((p, h'), w') → Wrote True (Owns h r) σ d h h' w w')
    (hhas : ∀ h r w p h' w', get h r w = .ok ((some p, h'), w') → w.store = σ → Has σ d h' (dictsOf p)) (rs : List Nat) :
    ∀ (fuel : Nat) (possible : List Nat) (h h' : Objects E) (i : Nat) (q : HProver E) (w w' : World),
      Objects.getAny get rs fuel possible h w = .ok ((some (i, q), h'), w') → w.store = σ → Has σ d h' (dictsOf q)
  | 0, possible, h, h', i, q, w, w', e, hw => by
    simp only [Objects.getAny, pm_pure_iff, Prod.mk.injEq] at e
    simp at e
  | fuel + 1, possible, h, h', i, q, w, w', e, hw => by
    simp only [Objects.getAny] at e
    split at e
    · simp [pm_pure_iff, Prod.mk.injEq] at e
    · obtain ⟨i, w1, e1, e⟩ := pm_bind.mp e
      have hw1 : w1.store = σ := (choice_store e1).trans hw
      cases hi : rs[i]? with
      | none => simp only [hi] at e; cases e
      | some r =>
        simp only [hi] at e
        obtain ⟨⟨p, h1⟩, w2, e2, e⟩ := pm_bind.mp e
        have g1 := hget h r w1 p h1 w2 e2
        cases p with
        | some p =>
          simp only [pm_pure_iff, Prod.mk.injEq, Option.some.injEq] at e
          obtain ⟨⟨⟨_, rfl⟩, rfl⟩, rfl⟩ := e
          exact hhas h r w1 p h1 w2 e2 hw1
        | none =>
          simp only at e
          exact has_any hget hhas rs fuel _ h1 h' _ q w2 w' e (g1.2.2 trivial hw1)

theorem dictsOfL_mem {v : Nat} {ps : List (HProver E)} (h : v ∈ dictsOfL ps) : ∃ p ∈ ps, v ∈ dictsOf p := by
  induction ps with
  | nil => simp [dictsOfL] at h
  | cons p ps ih =>
    simp only [dictsOfL, List.mem_append] at h
    rcases h with h | h
    · exact ⟨p, by simp, h⟩
    · obtain ⟨q, h1, h2⟩ := ih h
      exact ⟨q, by simp [h1], h2⟩

theorem has_prover {σ : Store} {d : Dict Int} (hA : updateSecretValues σ d = σ ∧ d.Uniq σ) :
    ∀ (n : Nat) (h : Objects E) (r : Nat) (w : World) (p : HProver E) (h' : Objects E) (w' : World),
      Objects.getProver d n h r w = .ok ((some p, h'), w') → w.store = σ → Has σ d h' (dictsOf p)
  | 0, h, r, w, p, h', w', e, hw => by simp only [Objects.getProver] at e; cases e
  | n + 1, h, r, w, p, h', w', e, hw => by
    simp only [Objects.getProver] at e
    cases ho : h.objs[r]? with
    | none => simp only [ho] at e; cases e
    | some o =>
      cases o with
      | rep lhs bases vars v b =>
        simp only [ho] at e
        cases hv : h.dicts[v]? with
        | none => simp only [hv] at e; cases e
        | some vals =>
          simp only [hv] at e
          rw [pm_getStore_bind] at e
          have hvl : v < h.dicts.length := (List.getElem?_eq_some_iff.mp hv).1
          split at e
          · simp [pm_pure_iff, Prod.mk.injEq] at e
          · simp only [pm_pure_iff, Prod.mk.injEq, Option.some.injEq] at e
            obtain ⟨⟨rfl, rfl⟩, rfl⟩ := e
            intro v' hv'
            simp only [dictsOf, List.mem_singleton] at hv'
            subst hv'
            refine ⟨Dict.update w.store vals d, by simp [hvl], fun x a hx => ?_⟩
            rw [hw, update_fill hA.2, hx]; rfl
      | all l b =>
        simp only [ho] at e
        cases hl : h.lists[l]? with
        | none => simp only [hl] at e; cases e
        | some rs =>
          simp only [hl, pm_getStore_bind, pm_setStore_bind] at e
          split at e
          · simp [pm_pure_iff, Prod.mk.injEq] at e
          · obtain ⟨⟨ps, h1⟩, w1, e1, e⟩ := pm_bind.mp e
            have g1 := has_all (wrote (fun _ => hA) n) (has_prover hA n) rs h h1 ps _ w1 e1 (by simp only [hw, hA.1])
            simp only at e
            cases hs : PTree.allSome ps with
            | none => simp only [hs] at e; cases e
            | some ps' =>
              simp only [hs, pm_pure_iff, Prod.mk.injEq, Option.some.injEq] at e
              obtain ⟨⟨rfl, rfl⟩, rfl⟩ := e
              rw [allSome_iff] at hs
              intro v hv
              obtain ⟨q, hq, hv⟩ := dictsOfL_mem hv
              exact g1 q (by rw [hs]; exact List.mem_map.mpr ⟨q, hq, rfl⟩) v hv
      | any l b =>
        simp only [ho] at e
        cases hl : h.lists[l]? with
        | none => simp only [hl] at e; cases e
        | some rs =>
          simp only [hl, pm_getStore_bind, pm_setStore_bind] at e
          split at e
          · simp [pm_pure_iff, Prod.mk.injEq] at e
          · obtain ⟨⟨x, h1⟩, w1, e1, e⟩ := pm_bind.mp e
            cases x with
            | none => simp [pm_pure_iff, Prod.mk.injEq] at e
            | some x =>
              obtain ⟨i, p1⟩ := x
              have g1 := has_any (wrote (fun _ => hA) n) (has_prover hA n) rs _ _ h h1 i p1 _ w1 e1 (by simp only [hw, hA.1])
              simp only at e
              cases hs : PTree.allSome (rs.map (h1.read n)) with
              | none => simp only [hs] at e; cases e
              | some ts =>
                simp only [hs] at e
                obtain ⟨⟨_, sims⟩, w2, e2, e⟩ := pm_bind.mp e
                simp only [pm_pure_iff, Prod.mk.injEq, Option.some.injEq] at e
                obtain ⟨⟨rfl, rfl⟩, _⟩ := e
                exact g1

mutual
theorem dictsOf_keep : ∀ (p : HProver E) (q : CoreProver E), dictsOf (p.keep q) = dictsOf p
  | .rep _ _ _, .leaf _ => rfl
  | .rep _ _ _, .and _ _ => rfl
  | .rep _ _ _, .or _ _ _ _ _ => rfl
  | .all _ _, .leaf _ => rfl
  | .all _ ps, .and _ qs => by simp only [HProver.keep, dictsOf, dictsOfL_keep ps qs]
  | .all _ _, .or _ _ _ _ _ => rfl
  | .any _ _ _ _, .leaf _ => rfl
  | .any _ _ _ _, .and _ _ => rfl
  | .any _ _ p _, .or _ _ _ q _ => by simp only [HProver.keep, dictsOf, dictsOf_keep p q]
theorem dictsOfL_keep : ∀ (ps : List (HProver E)) (qs : List (CoreProver E)), dictsOfL (HProver.keepL ps qs) = dictsOfL ps
  | [], _ => by cases ‹List (CoreProver E)› <;> rfl
  | _ :: _, [] => rfl
  | p :: ps, q :: qs => by simp only [HProver.keepL, dictsOfL, dictsOf_keep p q, dictsOfL_keep ps qs]
end

theorem dictsOf_commit {env : Env E} {h : Objects E} {hp hp' : HProver E} {w w' : World} {a : List UInt8 × Val E}
    (e : hp.commit env h w = .ok ((a, hp'), w')) : dictsOf hp' = dictsOf hp := by
  unfold HProver.commit at e
  cases hs : hp.see h with
  | none => simp only [hs] at e; cases e
  | some q =>
    simp only [hs] at e
    obtain ⟨⟨c, q'⟩, w1, e1, e⟩ := pm_bind.mp e
    simp only [pm_pure_iff, Prod.mk.injEq] at e
    rw [← e.1.2]
    exact dictsOf_keep hp q'

theorem respond_sees {h : Objects E} {hp : HProver E} {c : Int} {w w' : World} {a : Val E}
    (e : hp.respond h c w = .ok (a, w')) : ∃ p, hp.see h = some p := by
  unfold HProver.respond at e
  cases hs : hp.see h with
  | none => simp only [hs] at e; cases e
  | some q => exact ⟨q, rfl⟩

theorem read_leaf_obj {h : Objects E} {r : Nat} {s : DLRep E} (hr : h.tree r = some (.leaf s)) :
    ∃ lhs bases vars v b, h.objs[r]? = some (Obj.rep lhs bases vars v b) := by
  unfold Objects.tree at hr
  cases hn : h.objs.length with
  | zero => rw [hn] at hr; simp [Objects.read] at hr
  | succ n =>
    rw [hn] at hr
    simp only [Objects.read] at hr
    cases ho : h.objs[r]? with
    | none => simp [ho] at hr
    | some o =>
      cases o with
      | rep lhs bases vars v b => exact ⟨lhs, bases, vars, v, b, rfl⟩
      | all l b =>
        simp only [ho, Option.bind_eq_some_iff, Option.map_eq_some_iff] at hr
        obtain ⟨_, _, _, _, hr⟩ := hr
        cases hr
      | any l b =>
        simp only [ho, Option.bind_eq_some_iff, Option.map_eq_some_iff] at hr
        obtain ⟨_, _, _, _, hr⟩ := hr
        cases hr

theorem newRep_reads (h : Objects E) {σ : Store} {lhs : Pt E} {xs : List Sec} {bases : List (Pt E)} {b : Bool} :
    (h.newRep σ lhs xs bases b).map (fun x => x.2.tree x.1) = (mkDLRep σ lhs xs bases b).map (fun s => some (.leaf s)) := by
  unfold Objects.newRep
  cases hm : mkDLRep σ lhs xs bases b with
  | error x => rfl
  | ok s =>
    simp only [bind_ok, Except.map, Objects.tree, List.length_append, List.length_cons, List.length_nil, Objects.read]
    simp

theorem newRep_keeps {h h' : Objects E} {σ : Store} {lhs : Pt E} {xs : List Sec} {bases : List (Pt E)} {b : Bool} {r q : Nat}
    {t : Core E} (e : h.newRep σ lhs xs bases b = .ok (r, h')) (hq : h.tree q = some t) : h'.tree q = some t := by
  unfold Objects.newRep at e
  cases hm : mkDLRep σ lhs xs bases b with
  | error x => rw [hm] at e; cases e
  | ok s =>
    rw [hm] at e
    simp only [bind_ok, Except.ok.injEq, Prod.mk.injEq] at e
    obtain ⟨_, rfl⟩ := e
    have := read_append [Obj.rep s.lhs s.bases s.secretVars h.dicts.length s.simulated] [s.secretValues] [] _ q t hq
    rw [List.append_nil] at this
    exact read_mono _ _ _ _ _ (by simp) this

/-! ### Commitment and response of prover objects -/

mutual
/-- The prover object stores what `internal_commit` stores. -/
theorem keep_see {h : Objects E} : ∀ (hp : HProver E) (q : CoreProver E), hp.see h = some q →
    ∀ (d : Option (Dict Int)) (v : Val E) (q' : CoreProver E) (w w' : World),
      PTree.internalCommit q d w = .ok ((v, q'), w') → (hp.keep q').see h = some q'
  | .rep r vd ks, q, hs, d, v, q', w, w', hc => by
    simp only [HProver.see] at hs
    cases hr : h.read 1 r with
    | none => simp only [hr] at hs; cases hs
    | some t =>
      cases hd : h.dicts[vd]? with
      | none => cases t <;> simp only [hr, hd] at hs <;> cases hs
      | some vals =>
        cases t with
        | and b ts => simp only [hr, hd] at hs; cases hs
        | or b ts => simp only [hr, hd] at hs; cases hs
        | leaf s =>
          simp only [hr, hd, Option.some.injEq] at hs
          subst hs
          simp only [PTree.internalCommit] at hc
          obtain ⟨⟨v1, q1⟩, w1, h1, hc⟩ := pm_bind.mp hc
          rw [pm_pure_iff, Prod.mk.injEq, Prod.mk.injEq] at hc
          simp only at hc
          rw [← hc.1.2]
          have h1' : DLRepProver.internalCommit ⟨s, vals, ks⟩ d w = .ok ((v1, q1), w1) := h1
          unfold DLRepProver.internalCommit at h1'
          obtain ⟨d', w2, h2, h3⟩ := pm_bind.mp h1'
          rw [pm_getStore_bind, pm_liftE_bind_iff] at h3
          obtain ⟨ks', _, h3⟩ := h3
          obtain ⟨cm, _, h3⟩ := pm_liftE_bind_iff.mp h3
          rw [pm_pure_iff, Prod.mk.injEq, Prod.mk.injEq] at h3
          rw [← h3.1.2]
          simp only [HProver.keep, HProver.see, hr, hd]
  | .all r ps, q, hs, d, v, q', w, w', hc => by
    simp only [HProver.see] at hs
    cases ho : h.objs[r]? with
    | none => simp only [ho] at hs; cases hs
    | some o =>
      cases o with
      | rep _ _ _ _ _ => simp only [ho] at hs; cases hs
      | any _ _ => simp only [ho] at hs; cases hs
      | all l b =>
        simp only [ho, Option.map_eq_some_iff] at hs
        obtain ⟨qs, hqs, rfl⟩ := hs
        simp only [PTree.internalCommit] at hc
        rw [pm_getStore_bind, pm_liftE_bind_iff] at hc
        obtain ⟨_, _, hc⟩ := hc
        obtain ⟨d', w1, _, hc⟩ := pm_bind.mp hc
        obtain ⟨⟨vs, qs'⟩, w2, h2, hc⟩ := pm_bind.mp hc
        rw [pm_pure_iff, Prod.mk.injEq, Prod.mk.injEq] at hc
        simp only at hc
        rw [← hc.1.2]
        simp only [HProver.keep, HProver.see, ho]
        rw [keepL_see ps qs hqs d' vs qs' w1 w2 h2]
        rfl
  | .any r i p sims, q, hs, d, v, q', w, w', hc => by
    simp only [HProver.see] at hs
    cases ho : h.objs[r]? with
    | none => simp only [ho] at hs; cases hs
    | some o =>
      cases o with
      | rep _ _ _ _ _ => simp only [ho] at hs; cases hs
      | all _ _ => simp only [ho] at hs; cases hs
      | any l b =>
        simp only [ho, Option.bind_eq_some_iff, Option.map_eq_some_iff] at hs
        obtain ⟨rs, hl, ts, hts, q1, hq1, rfl⟩ := hs
        simp only [PTree.internalCommit] at hc
        rw [pm_getStore_bind, pm_liftE_bind_iff] at hc
        obtain ⟨_, _, hc⟩ := hc
        obtain ⟨⟨v1, p1⟩, w1, h1, hc⟩ := pm_bind.mp hc
        simp only at hc
        obtain ⟨vs, _, hc⟩ := pm_liftE_bind_iff.mp hc
        rw [pm_pure_iff, Prod.mk.injEq, Prod.mk.injEq] at hc
        rw [← hc.1.2]
        simp only [HProver.keep, HProver.see, ho, hl, Option.bind_some, hts]
        rw [keep_see p q1 hq1 none v1 p1 w w1 h1]
        rfl
theorem keepL_see {h : Objects E} : ∀ (hps : List (HProver E)) (qs : List (CoreProver E)), HProver.seeL h hps = some qs →
    ∀ (d : Dict Int) (vs : List (Val E)) (qs' : List (CoreProver E)) (w w' : World),
      PTree.internalCommitL qs d w = .ok ((vs, qs'), w') → HProver.seeL h (HProver.keepL hps qs') = some qs'
  | [], qs, hs, d, vs, qs', w, w', hc => by
    simp only [HProver.seeL, Option.some.injEq] at hs
    subst hs
    simp only [PTree.internalCommitL] at hc
    rw [pm_pure_iff, Prod.mk.injEq, Prod.mk.injEq] at hc
    rw [← hc.1.2]
    rfl
  | hp :: hps, qs, hs, d, vs, qs', w, w', hc => by
    simp only [HProver.seeL, Option.bind_eq_some_iff, Option.map_eq_some_iff] at hs
    obtain ⟨q, hq, qs1, hqs1, rfl⟩ := hs
    simp only [PTree.internalCommitL] at hc
    obtain ⟨⟨v, q1⟩, w1, h1, hc⟩ := pm_bind.mp hc
    obtain ⟨⟨vs1, qs2⟩, w2, h2, hc⟩ := pm_bind.mp hc
    rw [pm_pure_iff, Prod.mk.injEq, Prod.mk.injEq] at hc
    simp only at hc
    rw [← hc.1.2]
    simp only [HProver.keepL, HProver.seeL]
    rw [keep_see hp q hq (some d) v q1 w w1 h1, keepL_see hps qs1 hqs1 d vs1 qs2 w1 w2 h2]
    rfl
end

/-- A prover of a satisfied statement object commits and answers every challenge. -/
theorem answers_satisfied (env : Env E) {h : Objects E} {r : Nat} {t : Core E} {d : Dict Int} {w : World} {X : Key → Int}
    (hr : h.tree r = some t) (hs : Solid t) (ht : Torsion t) (hd : d.Uniq (heapFor w.store d t))
    (hX : Satisfied (heapFor w.store d t) d X t) (hc : Composable (heapFor w.store d t) t) :
    ∃ hp h1 w1 pc hp' w2, h.proverOf r d w = .ok ((some hp, h1), w1) ∧ w1.store = heapFor w.store d t ∧
      hp.commit env h1 w1 = .ok ((pc, hp'), w2) ∧ w2.store = w1.store ∧
      ∀ c, ∃ a w3, hp'.respond h1 c w2 = .ok (a, w3) ∧ verifyResponse w1.store t pc.2 c a = .ok true := by
  obtain ⟨hp, h', w1, e1, e2, e3⟩ := prover_satisfied hr hs ht hd hX hc
  obtain ⟨p, f1, f2, f3, f4⟩ := e3 h' (Frame.refl _ h') (Filled.refl _ _ h')
  rw [← e2] at hc f2 f3
  obtain ⟨v, hpre, -⟩ := precommit_progress p f2 w1
  obtain ⟨com, p', w2, hcom, hw2, -⟩ := commit_progress (PL := FitRep w1.store X) (fun q hq => hq.1.1) p f2
    (good_blank (good_of_solid t hs) _ f4) (composable_blank hc _ f4) none w1 rfl (by simp)
  obtain ⟨id, _, hid, _⟩ := Tree.proofId_isOk (σ := w1.store) (skel_core (PTree.stmtOf p))
  refine ⟨hp, h', w1, (env.digest id, com), hp.keep p', w2, e1, e2, ?_, hw2, fun c => ?_⟩
  · unfold HProver.commit PTree.commit
    simp only [f1]
    rw [pm_bind]
    refine ⟨((env.digest id, com), p'), w2, ?_, rfl⟩
    rw [pm_getStore_bind, hid, pm_liftE_bind, pm_bind_eq hcom]
    rfl
  · obtain ⟨a, w3, i1, _, i3⟩ := primed_every_challenge (primed_mono (QL := CorePL X w1.store) (fun q hq => hq.2) f2)
      (honest_mono (QL := CorePL X w1.store) (fun q hq => hq.2) f3) f4 hpre hcom c
    refine ⟨a, w3, ?_, i3⟩
    unfold HProver.respond
    rw [keep_see hp p f1 none com p' w1 w2 hcom]
    exact i1

end Zksk.Share
