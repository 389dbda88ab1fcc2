import Verif.Lemmas.Alias
import Verif.Lemmas.Monad

/-! Proving with statement objects at the leaves. -/

namespace Zksk.Alias

open Zksk Spec

variable {E : Type} [AddCommGroup E] [DecidableEq E]

/-- The first program does what the second does, with results related by `R`. -/
def Tracks {α β : Type} (x : PM α) (y : PM β) (R : α → β → Prop) : Prop :=
  ∀ w, (∃ e, y w = .error e ∧ x w = .error e) ∨ ∃ a b w', y w = .ok (b, w') ∧ x w = .ok (a, w') ∧ R a b

section
variable {α β γ δ : Type}

private theorem bind_err {x : PM α} {f : α → PM β} {w : World} {e : Err} (h : x w = .error e) :
    (x >>= f) w = .error e := by
  show (StateT.bind x f w) = _
  unfold StateT.bind
  rw [h]; rfl

theorem Tracks.bind {x : PM α} {y : PM β} {R : α → β → Prop} {f : α → PM γ} {g : β → PM δ} {S : γ → δ → Prop}
    (h : Tracks x y R) (k : ∀ a b, R a b → Tracks (f a) (g b) S) : Tracks (x >>= f) (y >>= g) S := by
  intro w
  rcases h w with ⟨e, h1, h2⟩ | ⟨a, b, w', h1, h2, h3⟩
  · exact .inl ⟨e, bind_err h1, bind_err h2⟩
  · rw [pm_bind_eq h1, pm_bind_eq h2]
    exact k a b h3 w'

theorem Tracks.pure {a : α} {b : β} {R : α → β → Prop} (h : R a b) : Tracks (Pure.pure a) (Pure.pure b) R :=
  fun w => .inr ⟨a, b, w, rfl, rfl, h⟩

theorem Tracks.raise {e : Err} {R : α → β → Prop} : Tracks (Zksk.raise e) (Zksk.raise e) R :=
  fun _ => .inl ⟨e, rfl, rfl⟩

theorem Tracks.refl (x : PM α) : Tracks x x Eq := by
  intro w
  cases h : x w with
  | error e => exact .inl ⟨e, rfl, rfl⟩
  | ok r => exact .inr ⟨r.1, r.1, r.2, rfl, rfl, rfl⟩

theorem Tracks.same {x : PM α} {f : α → PM γ} {g : α → PM δ} {S : γ → δ → Prop}
    (k : ∀ a, Tracks (f a) (g a) S) : Tracks (x >>= f) (x >>= g) S :=
  (Tracks.refl x).bind (fun a b h => h ▸ k a)

theorem Tracks.mono {x : PM α} {y : PM β} {R S : α → β → Prop} (h : Tracks x y R) (k : ∀ a b, R a b → S a b) :
    Tracks x y S := by
  intro w
  rcases h w with h | ⟨a, b, w', h1, h2, h3⟩
  · exact .inl h
  · exact .inr ⟨a, b, w', h1, h2, k a b h3⟩

theorem Tracks.eq {x : PM α} {y : PM β} {f : β → α} (h : Tracks x y (fun a b => a = f b)) :
    (do let b ← y; Pure.pure (f b)) = x := by
  funext w
  rcases h w with ⟨e, h1, h2⟩ | ⟨a, b, w', h1, h2, h3⟩
  · rw [bind_err h1, h2]
  · rw [pm_bind_eq h1, h2, h3]; rfl

end

/-- Only objects of `S` have been written. -/
def Frame (S : List Nat) (h h' : Objs E) : Prop := ∀ o, o ∉ S → h' o = h o

theorem Frame.refl (S : List Nat) (h : Objs E) : Frame S h h := fun _ _ => rfl

theorem Frame.trans {S T U : List Nat} {h h1 h2 : Objs E} (a : Frame S h h1) (b : Frame T h1 h2)
    (hs : ∀ o ∈ S, o ∈ U) (ht : ∀ o ∈ T, o ∈ U) : Frame U h h2 :=
  fun o ho => (b o (fun m => ho (ht o m))).trans (a o (fun m => ho (hs o m)))

theorem Frame.mono {S U : List Nat} {h h1 : Objs E} (a : Frame S h h1) (hs : ∀ o ∈ S, o ∈ U) : Frame U h h1 :=
  fun o ho => a o (fun m => ho (hs o m))

theorem frame_write (h : Objs E) (o : Nat) (l : Leaf E) : Frame [o] h (write h o l) := by
  intro i hi
  simp only [List.mem_singleton] at hi
  simp [write, hi]

theorem write_same (h : Objs E) (o : Nat) (l : Leaf E) : write h o l o = l := by simp [write]

mutual
theorem resolve_congr {h h' : Objs E} : ∀ (t : Tree Nat), (∀ o ∈ objects t, h' o = h o) → resolve h' t = resolve h t
  | .leaf o, k => by simp only [resolve, k o (by simp [objects])]
  | .and s subs, k => by
    simp only [resolve]; rw [resolveL_congr subs (fun o ho => k o (by simpa [objects] using ho))]
  | .or s subs, k => by
    simp only [resolve]; rw [resolveL_congr subs (fun o ho => k o (by simpa [objects] using ho))]
theorem resolveL_congr {h h' : Objs E} : ∀ (ts : List (Tree Nat)), (∀ o ∈ objectsL ts, h' o = h o) →
    resolveL h' ts = resolveL h ts
  | [], _ => rfl
  | t :: ts, k => by
    simp only [resolveL]
    rw [resolve_congr t (fun o ho => k o (by simp [objectsL, ho])),
      resolveL_congr ts (fun o ho => k o (by simp [objectsL, ho]))]
end

theorem resolveL_map (h : Objs E) : ∀ ts : List (Tree Nat), resolveL h ts = ts.map (resolve h)
  | [] => rfl
  | t :: ts => by simp only [resolveL, List.map_cons, resolveL_map h ts]

theorem mem_objectsL {o : Nat} : ∀ {ts : List (Tree Nat)}, o ∈ objectsL ts ↔ ∃ (i : Nat) (t : Tree Nat), ts[i]? = some t ∧ o ∈ objects t
  | [] => by simp [objectsL]
  | t :: ts => by
    simp only [objectsL, List.mem_append, mem_objectsL (ts := ts)]
    constructor
    · rintro (h | ⟨i, u, h1, h2⟩)
      · exact ⟨0, t, rfl, h⟩
      · exact ⟨i + 1, u, h1, h2⟩
    · rintro ⟨i, u, h1, h2⟩
      match i with
      | 0 => simp only [List.getElem?_cons_zero, Option.some.injEq] at h1; subst h1; exact .inl h2
      | i + 1 => exact .inr ⟨i, u, h1, h2⟩

theorem objects_disjoint : ∀ {ts : List (Tree Nat)}, (objectsL ts).Nodup → ∀ {i j : Nat} {t u : Tree Nat},
    ts[i]? = some t → ts[j]? = some u → i ≠ j → ∀ o ∈ objects t, o ∉ objects u
  | [], _, i, j, t, u, hi, _, _ => by cases hi
  | v :: ts, hn, i, j, t, u, hi, hj, hij => by
    simp only [objectsL] at hn
    obtain ⟨h1, h2, h3⟩ := List.nodup_append.mp hn
    intro o ho ho'
    match i, j with
    | 0, 0 => exact hij rfl
    | 0, j + 1 =>
      simp only [List.getElem?_cons_zero, Option.some.injEq] at hi; subst hi
      exact h3 o ho o (mem_objectsL.mpr ⟨j, u, hj, ho'⟩) rfl
    | i + 1, 0 =>
      simp only [List.getElem?_cons_zero, Option.some.injEq] at hj; subst hj
      exact h3 o ho' o (mem_objectsL.mpr ⟨i, t, hi, ho⟩) rfl
    | i + 1, j + 1 =>
      exact objects_disjoint h2 hi hj (fun h => hij (by rw [h])) o ho ho'

theorem objects_nodup : ∀ {ts : List (Tree Nat)}, (objectsL ts).Nodup → ∀ {i : Nat} {t : Tree Nat},
    ts[i]? = some t → (objects t).Nodup
  | [], _, i, t, hi => by cases hi
  | v :: ts, hn, i, t, hi => by
    simp only [objectsL] at hn
    obtain ⟨h1, h2, h3⟩ := List.nodup_append.mp hn
    match i with
    | 0 => simp only [List.getElem?_cons_zero, Option.some.injEq] at hi; subst hi; exact h1
    | i + 1 => exact objects_nodup h2 hi

/-! ### Simulation -/

mutual
theorem prepareSim_tracks : ∀ (t : Tree Nat) (h : Objs E), (objects t).Nodup →
    Tracks (Tree.prepareSim (resolve h t)) (prepareSim h t)
      (fun t' h' => t' = resolve h' t ∧ Frame (objects t) h h')
  | .leaf o, h, _ => by
    simp only [resolve, Tree.prepareSim, prepareSim]
    refine Tracks.same fun l => Tracks.pure ⟨?_, frame_write h o l⟩
    simp only [write_same]
  | .and s subs, h, hn => by
    simp only [resolve, Tree.prepareSim, prepareSim]
    have := prepareSimL_tracks subs h hn
    intro w
    rcases this w with ⟨e, h1, h2⟩ | ⟨a, b, w', h1, h2, h3, h4⟩
    · exact .inl ⟨e, h1, bind_err h2⟩
    · exact .inr ⟨.and s a, b, w', h1, by rw [pm_bind_eq h2]; rfl, by simp only [h3], h4⟩
  | .or s subs, h, hn => by
    simp only [resolve, Tree.prepareSim, prepareSim]
    have := prepareSimL_tracks subs h hn
    intro w
    rcases this w with ⟨e, h1, h2⟩ | ⟨a, b, w', h1, h2, h3, h4⟩
    · exact .inl ⟨e, h1, bind_err h2⟩
    · exact .inr ⟨.or s a, b, w', h1, by rw [pm_bind_eq h2]; rfl, by simp only [h3], h4⟩
theorem prepareSimL_tracks : ∀ (ts : List (Tree Nat)) (h : Objs E), (objectsL ts).Nodup →
    Tracks (Tree.prepareSimL (resolveL h ts)) (prepareSimL h ts)
      (fun ts' h' => ts' = resolveL h' ts ∧ Frame (objectsL ts) h h')
  | [], h, _ => by
    simp only [resolveL, Tree.prepareSimL, prepareSimL]
    exact Tracks.pure ⟨rfl, Frame.refl _ _⟩
  | t :: ts, h, hn => by
    simp only [objectsL] at hn
    obtain ⟨h1, h2, h3⟩ := List.nodup_append.mp hn
    simp only [resolveL, Tree.prepareSimL, prepareSimL]
    refine (prepareSim_tracks t h h1).bind ?_
    rintro t' h' ⟨rfl, hf⟩
    have hr : resolveL h ts = resolveL h' ts :=
      (resolveL_congr ts fun o ho => hf o fun ho' => h3 o ho' o ho rfl).symm
    rw [hr]
    intro w
    rcases prepareSimL_tracks ts h' h2 w with ⟨e, k1, k2⟩ | ⟨a, b, w', k1, k2, k3, k4⟩
    · exact .inl ⟨e, k1, bind_err k2⟩
    · refine .inr ⟨resolve h' t :: a, b, w', k1, by rw [pm_bind_eq k2]; rfl, ?_, ?_⟩
      · rw [k3]
        congr 1
        exact (resolve_congr t fun o ho => k4 o fun ho' => h3 o ho o ho' rfl).symm
      · exact hf.trans k4 (fun o ho => by simp [objectsL, ho]) (fun o ho => by simp [objectsL, ho])
end

theorem setup_tracks (idx : Nat) : ∀ (ts : List (Tree Nat)) (h : Objs E) (index : Nat), (objectsL ts).Nodup →
    Tracks (PTree.setupSimulations idx (resolveL h ts) index) (setupSimulations idx h ts index)
      (fun x y => x = (resolveL y.2 ts, y.1) ∧ Frame (objectsL ts) h y.2 ∧
        ∀ (j : Nat) (t : Tree Nat), ts[j]? = some t → index + j = idx → ∀ o ∈ objects t, y.2 o = h o)
  | [], h, index, _ => by
    simp only [resolveL, PTree.setupSimulations, setupSimulations]
    exact Tracks.pure ⟨rfl, Frame.refl _ _, fun j t hj => by cases hj⟩
  | t :: ts, h, index, hn => by
    simp only [objectsL] at hn
    obtain ⟨h1, h2, h3⟩ := List.nodup_append.mp hn
    simp only [resolveL, PTree.setupSimulations, setupSimulations]
    by_cases hi : index = idx
    · simp only [hi, if_true]
      have key := setup_tracks idx ts h (idx + 1) h2
      intro w
      rcases key w with ⟨e, k1, k2⟩ | ⟨a, b, w', k1, k2, k3, k4, k5⟩
      · exact .inl ⟨e, k1, bind_err k2⟩
      · have hd : ∀ o ∈ objects t, b.2 o = h o := fun o ho => k4 o fun ho' => h3 o ho o ho' rfl
        refine .inr ⟨(resolve h t :: a.1, a.2), b, w', k1, by rw [pm_bind_eq k2]; rfl, ?_, ?_, ?_⟩
        · rw [k3, resolve_congr t hd]
        · exact k4.mono fun o ho => by simp [objectsL, ho]
        · intro j u hj hji
          match j with
          | 0 => simp only [List.getElem?_cons_zero, Option.some.injEq] at hj; subst hj; exact hd
          | j + 1 => omega
    · simp only [hi, if_false]
      refine (prepareSim_tracks t h h1).bind ?_
      rintro t' h' ⟨rfl, hf⟩
      have hr : resolveL h ts = resolveL h' ts :=
        (resolveL_congr ts fun o ho => hf o fun ho' => h3 o ho' o ho rfl).symm
      rw [hr]
      refine Tracks.same fun sim => ?_
      refine (setup_tracks idx ts h' (index + 1) h2).bind ?_
      rintro ⟨ts', sims'⟩ ⟨sims, h''⟩ ⟨he, k4, k5⟩
      simp only [Prod.mk.injEq] at he
      obtain ⟨rfl, rfl⟩ := he
      refine Tracks.pure ⟨?_, ?_, ?_⟩
      · simp only [Prod.mk.injEq, List.cons.injEq, and_true]
        exact (resolve_congr t fun o ho => k4 o fun ho' => h3 o ho o ho' rfl).symm
      · exact hf.trans k4 (fun o ho => by simp [objectsL, ho]) (fun o ho => by simp [objectsL, ho])
      · intro j u hj hji
        match j with
        | 0 => omega
        | j + 1 =>
          intro o ho
          have hm : o ∈ objectsL ts := mem_objectsL.mpr ⟨j, u, hj, ho⟩
          exact (k5 j u hj (by omega) o ho).trans (hf o fun ho' => h3 o ho' o hm rfl)

/-! ### Provers -/

mutual
/-- The composition a prover belongs to. -/
def stmtIds : PlaceProver E → Tree Nat
  | .leaf (o, _) => .leaf o
  | .and s subs => .and s (stmtIdsL subs)
  | .or s _ stmts _ _ => .or s stmts
/-- The compositions of a list of provers. -/
def stmtIdsL : List (PlaceProver E) → List (Tree Nat)
  | [] => []
  | p :: ps => stmtIds p :: stmtIdsL ps
end

mutual
/-- The prover inside an or-prover belongs to the clause. -/
def Fits : PlaceProver E → Prop
  | .leaf _ => True
  | .and _ subs => FitsL subs
  | .or _ idx stmts sub _ => Fits sub ∧ stmts[idx]? = some (stmtIds sub)
/-- The same for a list of provers. -/
def FitsL : List (PlaceProver E) → Prop
  | [] => True
  | p :: ps => Fits p ∧ FitsL ps
end

mutual
theorem resolveP_congr {h h' : Objs E} : ∀ (p : PlaceProver E), Fits p → (∀ o ∈ objects (stmtIds p), h' o = h o) →
    resolveP h' p = resolveP h p
  | .leaf (o, p), _, k => by simp only [resolveP, k o (by simp [stmtIds, objects])]
  | .and s subs, hf, k => by
    simp only [resolveP]
    rw [resolvePL_congr subs (by simpa only [Fits] using hf) (fun o ho => k o (by simpa [stmtIds, objects] using ho))]
  | .or s idx stmts sub sims, hf, k => by
    simp only [Fits] at hf
    simp only [stmtIds, objects] at k
    simp only [resolveP]
    rw [resolveL_congr stmts k, resolveP_congr sub hf.1 (fun o ho => k o (mem_objectsL.mpr ⟨idx, _, hf.2, ho⟩))]
theorem resolvePL_congr {h h' : Objs E} : ∀ (ps : List (PlaceProver E)), FitsL ps →
    (∀ o ∈ objectsL (stmtIdsL ps), h' o = h o) → resolvePL h' ps = resolvePL h ps
  | [], _, _ => rfl
  | p :: ps, hf, k => by
    simp only [FitsL] at hf
    simp only [stmtIdsL, objectsL, List.mem_append] at k
    simp only [resolvePL]
    rw [resolveP_congr p hf.1 (fun o ho => k o (.inl ho)), resolvePL_congr ps hf.2 (fun o ho => k o (.inr ho))]
end

mutual
/-- The provers of leaves refer to statements of their kind. -/
def Loaded (h : Objs E) : PlaceProver E → Prop
  | .leaf (o, p) => ProverOps.stmtOf (load (h o) p) = h o
  | .and _ subs => LoadedL h subs
  | .or _ _ _ sub _ => Loaded h sub
/-- The same for a list of provers. -/
def LoadedL (h : Objs E) : List (PlaceProver E) → Prop
  | [] => True
  | p :: ps => Loaded h p ∧ LoadedL h ps
end

mutual
theorem loaded_congr {h h' : Objs E} : ∀ (p : PlaceProver E), Fits p → (∀ o ∈ objects (stmtIds p), h' o = h o) →
    Loaded h p → Loaded h' p
  | .leaf (o, p), _, k, hl => by
    simp only [Loaded] at hl ⊢
    rw [k o (by simp [stmtIds, objects])]; exact hl
  | .and s subs, hf, k, hl => by
    simp only [Loaded] at hl ⊢
    exact loadedL_congr subs (by simpa only [Fits] using hf) (fun o ho => k o (by simpa [stmtIds, objects] using ho)) hl
  | .or s idx stmts sub sims, hf, k, hl => by
    simp only [Fits] at hf
    simp only [stmtIds, objects] at k
    simp only [Loaded] at hl ⊢
    exact loaded_congr sub hf.1 (fun o ho => k o (mem_objectsL.mpr ⟨idx, _, hf.2, ho⟩)) hl
theorem loadedL_congr {h h' : Objs E} : ∀ (ps : List (PlaceProver E)), FitsL ps →
    (∀ o ∈ objectsL (stmtIdsL ps), h' o = h o) → LoadedL h ps → LoadedL h' ps
  | [], _, _, _ => by simp only [LoadedL]
  | p :: ps, hf, k, hl => by
    simp only [FitsL] at hf
    simp only [stmtIdsL, objectsL, List.mem_append] at k
    simp only [LoadedL] at hl ⊢
    exact ⟨loaded_congr p hf.1 (fun o ho => k o (.inl ho)) hl.1, loadedL_congr ps hf.2 (fun o ho => k o (.inr ho)) hl.2⟩
end

mutual
theorem stmtOf_resolveP {h : Objs E} : ∀ (p : PlaceProver E), Fits p → Loaded h p →
    PTree.stmtOf (resolveP h p) = resolve h (stmtIds p)
  | .leaf (o, p), _, hl => by
    simp only [Loaded] at hl
    simp only [resolveP, PTree.stmtOf, stmtIds, resolve, hl]
  | .and s subs, hf, hl => by
    simp only [Fits] at hf
    simp only [Loaded] at hl
    simp only [resolveP, PTree.stmtOf, stmtIds, resolve, stmtOfL_resolveP subs hf hl]
  | .or s idx stmts sub sims, hf, hl => by
    simp only [Fits] at hf
    simp only [Loaded] at hl
    simp only [resolveP, PTree.stmtOf, stmtIds, resolve, stmtOf_resolveP sub hf.1 hl, Tree.or.injEq, true_and,
      resolveL_map]
    obtain ⟨hlt, hget⟩ := List.getElem?_eq_some_iff.mp hf.2
    apply List.ext_getElem?
    intro j
    rw [List.getElem?_set]
    by_cases hij : idx = j
    · subst hij
      simp [hlt, hget]
    · simp [hij]
theorem stmtOfL_resolveP {h : Objs E} : ∀ (ps : List (PlaceProver E)), FitsL ps → LoadedL h ps →
    PTree.stmtOfL (resolvePL h ps) = resolveL h (stmtIdsL ps)
  | [], _, _ => rfl
  | p :: ps, hf, hl => by
    simp only [FitsL] at hf
    simp only [LoadedL] at hl
    simp only [resolvePL, PTree.stmtOfL, stmtIdsL, resolveL, stmtOf_resolveP p hf.1 hl.1, stmtOfL_resolveP ps hf.2 hl.2]
end

theorem leaf_getProver_load (l : Leaf E) (d : Dict Int) : ∀ w p? l' w',
    (ProverOps.getProver l d : PM (Option (LeafProver E) × Leaf E)) w = .ok ((p?, l'), w') →
    ∀ p, p? = some p → load l' p = p ∧ ProverOps.stmtOf p = l' := by
  intro w p? l' w' h p hp
  subst hp
  cases l with
  | dlrep s =>
    simp only [ProverOps.getProver, DLRepProver.getProver] at h
    obtain ⟨⟨q, s'⟩, w1, h1, h2⟩ := pm_bind.mp h
    simp only [pm_pure_iff, Prod.mk.injEq] at h2
    obtain ⟨⟨h3, h4⟩, h5⟩ := h2
    rw [pm_getStore_bind] at h1
    split at h1
    · simp only [pm_pure_iff, Prod.mk.injEq] at h1
      obtain ⟨⟨h6, h7⟩, h8⟩ := h1
      subst h6; cases h3
    · simp only [pm_pure_iff, Prod.mk.injEq] at h1
      obtain ⟨⟨h6, h7⟩, h8⟩ := h1
      subst h6 h7
      simp only [Option.map_some, Option.some.injEq] at h3
      subst h3 h4
      exact ⟨rfl, rfl⟩
  | ext s =>
    simp only [ProverOps.getProver, ExtProver.getProver] at h
    obtain ⟨⟨q, s'⟩, w1, h1, h2⟩ := pm_bind.mp h
    simp only [pm_pure_iff, Prod.mk.injEq] at h2
    obtain ⟨⟨h3, h4⟩, h5⟩ := h2
    rw [pm_getStore_bind, pm_setStore_bind] at h1
    simp only [pm_pure_iff, Prod.mk.injEq] at h1
    obtain ⟨⟨h6, h7⟩, h8⟩ := h1
    subst h6 h7
    simp only [Option.map_some, Option.some.injEq] at h3
    subst h3 h4
    exact ⟨rfl, rfl⟩

/-- What `get_prover` of a composition returns, for objects and for values. -/
def Got (t : Tree Nat) (h : Objs E) (x : Option (StmtProver E) × Stmt E) (y : Option (PlaceProver E) × Objs E) : Prop :=
  x = (y.1.map (resolveP y.2), resolve y.2 t) ∧ Frame (objects t) h y.2 ∧
    ∀ p, y.1 = some p → Fits p ∧ stmtIds p = t ∧ Loaded y.2 p

theorem allSome_map {α β : Type} (f : α → β) : ∀ l : List (Option α),
    PTree.allSome (l.map (Option.map f)) = (PTree.allSome l).map (List.map f)
  | [] => rfl
  | none :: l => rfl
  | some a :: l => by
    simp only [List.map_cons, Option.map_some, PTree.allSome, allSome_map f l, Option.map_map]
    rfl

/-- The provers belong to the statements. -/
def Belong (h : Objs E) (p? : Option (PlaceProver E)) (t : Tree Nat) : Prop :=
  ∀ p, p? = some p → Fits p ∧ stmtIds p = t ∧ Loaded h p

theorem allSome_belong {h : Objs E} : ∀ {ps : List (Option (PlaceProver E))} {ts : List (Tree Nat)} {ps' : List (PlaceProver E)},
    List.Forall₂ (Belong h) ps ts → PTree.allSome ps = some ps' → FitsL ps' ∧ stmtIdsL ps' = ts ∧ LoadedL h ps'
  | _, _, ps', .nil, h => by
    simp only [PTree.allSome, Option.some.injEq] at h
    subst h
    simp [FitsL, stmtIdsL, LoadedL]
  | p? :: ps, t :: ts, ps', .cons h1 h2, h => by
    cases p? with
    | none => simp [PTree.allSome] at h
    | some p =>
      simp only [PTree.allSome, Option.map_eq_some_iff] at h
      obtain ⟨qs, h3, rfl⟩ := h
      obtain ⟨h4, h5, h8⟩ := allSome_belong h2 h3
      obtain ⟨h6, h7, h9⟩ := h1 p rfl
      exact ⟨by simp only [FitsL]; exact ⟨h6, h4⟩, by simp only [stmtIdsL, h5, h7], by simp only [LoadedL]; exact ⟨h9, h8⟩⟩

theorem resolvePL_map (h : Objs E) : ∀ ps : List (PlaceProver E), resolvePL h ps = ps.map (resolveP h)
  | [] => rfl
  | p :: ps => by simp only [resolvePL, List.map_cons, resolvePL_map h ps]

theorem acts_nth (d : Dict Int) : ∀ (ts : List (Tree Nat)) (i : Nat),
    (getProverActs d ts : List (Objs E → _))[i]? = (ts[i]?).map (getProver d)
  | [], i => by simp [getProverActs]
  | t :: ts, 0 => by simp [getProverActs]
  | t :: ts, i + 1 => by simp only [getProverActs, List.getElem?_cons_succ, acts_nth d ts i]

theorem value_acts_nth (d : Dict Int) : ∀ (ts : List (Stmt E)) (i : Nat),
    (PTree.getProverActs ts d : List (PM (Option (StmtProver E) × Stmt E)))[i]? =
      (ts[i]?).map (fun t => PTree.getProver t d)
  | [], i => by simp [PTree.getProverActs]
  | t :: ts, 0 => by simp [PTree.getProverActs]
  | t :: ts, i + 1 => by simp only [PTree.getProverActs, List.getElem?_cons_succ, value_acts_nth d ts i]

theorem resolveL_set {h h' : Objs E} {i : Nat} {t : Tree Nat} {ts : List (Tree Nat)} (hn : (objectsL ts).Nodup)
    (hi : ts[i]? = some t) (hf : Frame (objects t) h h') : (resolveL h ts).set i (resolve h' t) = resolveL h' ts := by
  simp only [resolveL_map]
  apply List.ext_getElem?
  intro j
  rw [List.getElem?_set]
  obtain ⟨hlt, hget⟩ := List.getElem?_eq_some_iff.mp hi
  by_cases hij : i = j
  · subst hij
    simp [hlt, hget]
  · simp only [hij, if_false, List.getElem?_map]
    cases hj : ts[j]? with
    | none => rfl
    | some u =>
      simp only [Option.map_some, Option.some.injEq]
      exact (resolve_congr u fun o ho => hf o fun ho' => objects_disjoint hn hi hj hij o ho' ho).symm

theorem orLoop_tracks {d : Dict Int} {subs : List (Tree Nat)} (hn : (objectsL subs).Nodup)
    (ih : ∀ (i : Nat) (t : Tree Nat), subs[i]? = some t → ∀ h : Objs E,
      Tracks (PTree.getProver (resolve h t) d) (getProver d t h) (Got t h)) (h0 : Objs E) :
    ∀ (fuel : Nat) (possible : List Nat) (h : Objs E), possible.Nodup →
      (∀ i ∈ possible, ∀ t, subs[i]? = some t → ∀ o ∈ objects t, h o = h0 o) →
      Tracks (PTree.orLoop (PTree.getProverActs (resolveL h0 subs) d) fuel possible (resolveL h subs))
        (orLoop (getProverActs d subs) fuel possible h)
        (fun x y => x = (y.1.map (fun q => (q.1, resolveP y.2 q.2)), resolveL y.2 subs) ∧
          Frame (objectsL subs) h y.2 ∧ ∀ i p, y.1 = some (i, p) → Fits p ∧ subs[i]? = some (stmtIds p) ∧ Loaded y.2 p)
  | 0, possible, h, _, _ => by
    simp only [PTree.orLoop, orLoop]
    exact Tracks.pure ⟨rfl, Frame.refl _ _, fun i p hp => by cases hp⟩
  | fuel + 1, possible, h, hp, hk => by
    simp only [PTree.orLoop, orLoop]
    by_cases he : possible.isEmpty
    · simp only [he, if_true]
      exact Tracks.pure ⟨rfl, Frame.refl _ _, fun i p hp => by cases hp⟩
    · simp only [he, if_false, Bool.false_eq_true]
      -- the choice is one of the possible clauses
      have hc : Tracks (PTree.choice possible) (PTree.choice possible) (fun a b => a = b ∧ b ∈ possible) := by
        intro w
        cases hx : PTree.choice possible w with
        | error e => exact .inl ⟨e, rfl, rfl⟩
        | ok r =>
          refine .inr ⟨r.1, r.1, r.2, rfl, rfl, rfl, ?_⟩
          unfold PTree.choice at hx
          obtain ⟨k, w1, h1, h2⟩ := pm_bind.mp hx
          cases hg : possible[k.toNat]? with
          | none => rw [hg] at h2; exact (raise_ne.mp h2).elim
          | some a =>
            rw [hg] at h2
            simp only [pm_pure_iff] at h2
            rw [← h2]
            exact List.mem_of_getElem? hg
      refine hc.bind ?_
      rintro i _ ⟨rfl, hi⟩
      rw [acts_nth, value_acts_nth]
      have hl : (resolveL h0 subs)[i]? = (subs[i]?).map (resolve h0) := by rw [resolveL_map, List.getElem?_map]
      rw [hl]
      cases hs : subs[i]? with
      | none => exact Tracks.raise
      | some t =>
        simp only [Option.map_some]
        rw [← resolve_congr t (hk i hi t hs)]
        refine (ih i t hs h).bind ?_
        rintro ⟨p?', t'⟩ ⟨p?, h'⟩ ⟨hx, hf, hb⟩
        simp only [Prod.mk.injEq] at hx
        obtain ⟨rfl, rfl⟩ := hx
        cases p? with
        | some p =>
          simp only [Option.map_some]
          refine Tracks.pure ⟨?_, ?_, ?_⟩
          · simp only [Option.map_some, Prod.mk.injEq, true_and]
            exact resolveL_set hn hs hf
          · exact hf.mono fun o ho => mem_objectsL.mpr ⟨i, t, hs, ho⟩
          · intro j q hj
            simp only [Option.some.injEq, Prod.mk.injEq] at hj
            obtain ⟨rfl, rfl⟩ := hj
            obtain ⟨h1, h2, h3⟩ := hb p rfl
            exact ⟨h1, by rw [hs, h2], h3⟩
        | none =>
          simp only [Option.map_none]
          rw [resolveL_set hn hs hf]
          refine (orLoop_tracks hn ih h0 fuel (possible.erase i) h' (hp.erase i) ?_).mono ?_
          · intro j hj u hu o ho
            have hji : j ≠ i := fun e => by subst e; exact (hp.mem_erase_iff.mp hj).1 rfl
            exact (hf o (objects_disjoint hn hu hs hji o ho)).trans (hk j (List.mem_of_mem_erase hj) u hu o ho)
          · rintro x y ⟨k1, k2, k3⟩
            exact ⟨k1, (hf.mono fun o ho => mem_objectsL.mpr ⟨i, t, hs, ho⟩).trans k2 (fun _ h => h) (fun _ h => h), k3⟩

theorem candidates_nodup {L : Type} [StmtOps E L] : ∀ (ts : List (Tree L)) (i : Nat),
    (PTree.candidates ts i).Nodup ∧ ∀ j ∈ PTree.candidates ts i, i ≤ j
  | [], i => by simp [PTree.candidates]
  | t :: ts, i => by
    obtain ⟨h1, h2⟩ := candidates_nodup ts (i + 1)
    simp only [PTree.candidates]
    split
    · exact ⟨h1, fun j hj => by have := h2 j hj; omega⟩
    · refine ⟨List.nodup_cons.mpr ⟨fun hm => ?_, h1⟩, ?_⟩
      · have := h2 i hm; omega
      · intro j hj
        rcases List.mem_cons.mp hj with rfl | hj
        · exact le_refl _
        · have := h2 j hj; omega

mutual
theorem getProver_tracks (d : Dict Int) : ∀ (t : Tree Nat) (h : Objs E), (objects t).Nodup →
    Tracks (PTree.getProver (resolve h t) d) (getProver d t h) (Got t h)
  | .leaf o, h, _ => by
    simp only [resolve, PTree.getProver, getProver]
    intro w
    cases hx : (ProverOps.getProver (h o) d : PM (Option (LeafProver E) × Leaf E)) w with
    | error e => exact .inl ⟨e, bind_err hx, bind_err hx⟩
    | ok r =>
      obtain ⟨⟨p?, l⟩, w'⟩ := r
      refine .inr ⟨(p?.map .leaf, .leaf l), (p?.map (fun p => .leaf (o, p)), write h o l), w',
        by rw [pm_bind_eq hx]; rfl, by rw [pm_bind_eq hx]; rfl, ?_, frame_write h o l, ?_⟩
      · cases p? with
        | none => simp only [Option.map_none, resolve, write_same]
        | some p => simp only [Option.map_some, resolve, resolveP, write_same, (leaf_getProver_load _ d w _ _ w' hx p rfl).1]
      · intro p hp
        cases p? with
        | none => cases hp
        | some q =>
          simp only [Option.map_some, Option.some.injEq] at hp
          subst hp
          obtain ⟨h1, h2⟩ := leaf_getProver_load _ d w _ _ w' hx q rfl
          refine ⟨by simp only [Fits], rfl, ?_⟩
          simp only [Loaded, write_same, h1, h2]
  | .and s subs, h, hn => by
    simp only [objects] at hn
    simp only [resolve, PTree.getProver, getProver]
    refine Tracks.same fun σ => Tracks.same fun _ => ?_
    cases s with
    | true =>
      simp only [if_true]
      exact Tracks.pure ⟨rfl, Frame.refl _ _, fun p hp => by cases hp⟩
    | false =>
      simp only [Bool.false_eq_true, if_false]
      refine (getProverL_tracks d subs h hn).bind ?_
      rintro ⟨ps', ts'⟩ ⟨ps, h'⟩ ⟨hx, hf, hb⟩
      simp only [Prod.mk.injEq] at hx
      obtain ⟨rfl, rfl⟩ := hx
      simp only [allSome_map]
      cases ha : PTree.allSome ps with
      | none => exact Tracks.raise
      | some qs =>
        simp only [Option.map_some]
        obtain ⟨h1, h2, h3⟩ := allSome_belong hb ha
        refine Tracks.pure ⟨?_, by simpa only [objects] using hf, ?_⟩
        · simp only [Option.map_some, resolveP, resolve, resolvePL_map]
        · intro p hp
          simp only [Option.some.injEq] at hp
          subst hp
          exact ⟨by simpa only [Fits] using h1, by simp only [stmtIds, h2], by simpa only [Loaded] using h3⟩
  | .or s subs, h, hn => by
    simp only [objects] at hn
    simp only [resolve, PTree.getProver, getProver]
    refine Tracks.same fun σ => Tracks.same fun _ => ?_
    cases s with
    | true =>
      simp only [if_true]
      exact Tracks.pure ⟨rfl, Frame.refl _ _, fun p hp => by cases hp⟩
    | false =>
      simp only [Bool.false_eq_true, if_false]
      refine (orLoop_tracks hn (fun i t hi => getProver_nth d subs hn i t hi) h _ _ h
        (candidates_nodup _ _).1 (fun _ _ _ _ _ _ => rfl)).bind ?_
      rintro ⟨r', ts'⟩ ⟨r, h'⟩ ⟨hx, hf, hb⟩
      simp only [Prod.mk.injEq] at hx
      obtain ⟨rfl, rfl⟩ := hx
      cases r with
      | none =>
        exact Tracks.pure ⟨by simp only [Option.map_none, resolve], by simpa only [objects] using hf, fun p hp => by cases hp⟩
      | some q =>
        obtain ⟨i, p⟩ := q
        obtain ⟨h1, h2, h3⟩ := hb i p rfl
        simp only [Option.map_some]
        refine (setup_tracks i subs h' 0 hn).bind ?_
        rintro ⟨ts'', sims'⟩ ⟨sims, h''⟩ ⟨hx, k4, k5⟩
        simp only [Prod.mk.injEq] at hx
        obtain ⟨rfl, rfl⟩ := hx
        refine Tracks.pure ⟨?_, ?_, ?_⟩
        · simp only [Option.map_some, resolveP, resolve, Prod.mk.injEq, and_true, Option.some.injEq, PTree.or.injEq,
            true_and]
          exact (resolveP_congr p h1 (k5 i _ h2 (by omega))).symm
        · simp only [objects]
          exact hf.trans k4 (fun _ h => h) (fun _ h => h)
        · intro q hq
          simp only [Option.some.injEq] at hq
          subst hq
          exact ⟨by simp only [Fits]; exact ⟨h1, h2⟩, rfl, by
            simp only [Loaded]; exact loaded_congr p h1 (k5 i _ h2 (by omega)) h3⟩
theorem getProverL_tracks (d : Dict Int) : ∀ (ts : List (Tree Nat)) (h : Objs E), (objectsL ts).Nodup →
    Tracks (PTree.getProverL (resolveL h ts) d) (getProverL d ts h)
      (fun x y => x = (y.1.map (Option.map (resolveP y.2)), resolveL y.2 ts) ∧ Frame (objectsL ts) h y.2 ∧
        List.Forall₂ (Belong y.2) y.1 ts)
  | [], h, _ => by
    simp only [resolveL, PTree.getProverL, getProverL]
    exact Tracks.pure ⟨rfl, Frame.refl _ _, .nil⟩
  | t :: ts, h, hn => by
    simp only [objectsL] at hn
    obtain ⟨h1, h2, h3⟩ := List.nodup_append.mp hn
    simp only [resolveL, PTree.getProverL, getProverL]
    refine (getProver_tracks d t h h1).bind ?_
    rintro ⟨p?', t'⟩ ⟨p?, h'⟩ ⟨hx, hf, hb⟩
    simp only [Prod.mk.injEq] at hx
    obtain ⟨rfl, rfl⟩ := hx
    have hr : resolveL h ts = resolveL h' ts :=
      (resolveL_congr ts fun o ho => hf o fun ho' => h3 o ho' o ho rfl).symm
    rw [hr]
    refine (getProverL_tracks d ts h' h2).bind ?_
    rintro ⟨ps', ts'⟩ ⟨ps, h''⟩ ⟨hx, k4, k5⟩
    simp only [Prod.mk.injEq] at hx
    obtain ⟨rfl, rfl⟩ := hx
    have hd : ∀ o ∈ objects t, h'' o = h' o := fun o ho => k4 o fun ho' => h3 o ho o ho' rfl
    refine Tracks.pure ⟨?_, ?_, .cons ?_ k5⟩
    · simp only [List.map_cons, Prod.mk.injEq, List.cons.injEq, and_true]
      refine ⟨?_, (resolve_congr t hd).symm⟩
      cases p? with
      | none => rfl
      | some p =>
        obtain ⟨h4, h5, _⟩ := hb p rfl
        simp only [Option.map_some, Option.some.injEq]
        exact (resolveP_congr p h4 (by rw [h5]; exact hd)).symm
    · exact hf.trans k4 (fun o ho => by simp [objectsL, ho]) (fun o ho => by simp [objectsL, ho])
    · intro p hp
      obtain ⟨h4, h5, h6⟩ := hb p hp
      exact ⟨h4, h5, loaded_congr p h4 (by rw [h5]; exact hd) h6⟩
theorem getProver_nth (d : Dict Int) : ∀ (ts : List (Tree Nat)), (objectsL ts).Nodup → ∀ (i : Nat) (t : Tree Nat),
    ts[i]? = some t → ∀ h : Objs E, Tracks (PTree.getProver (resolve h t) d) (getProver d t h) (Got t h)
  | [], _, i, t, hi, _ => by cases hi
  | u :: ts, hn, 0, t, hi, h => by
    simp only [List.getElem?_cons_zero, Option.some.injEq] at hi
    rw [← hi]
    exact getProver_tracks d u h (List.nodup_append.mp (by simpa only [objectsL] using hn)).1
  | u :: ts, hn, i + 1, t, hi, h =>
    getProver_nth d ts (List.nodup_append.mp (by simpa only [objectsL] using hn)).2.1 i t hi h
end

/-! ### After the provers are made -/

mutual
/-- The prover with the current statement at the clause it proves. -/
def norm : StmtProver E → StmtProver E
  | .leaf p => .leaf p
  | .and s subs => .and s (normL subs)
  | .or s idx stmts sub sims => .or s idx (stmts.set idx (PTree.stmtOf sub)) (norm sub) sims
/-- The same for a list of provers. -/
def normL : List (StmtProver E) → List (StmtProver E)
  | [] => []
  | p :: ps => norm p :: normL ps
end

mutual
theorem stmtOf_norm : ∀ p : StmtProver E, PTree.stmtOf (norm p) = PTree.stmtOf p
  | .leaf p => rfl
  | .and s subs => by simp only [norm, PTree.stmtOf, stmtOfL_norm subs]
  | .or s idx stmts sub sims => by simp only [norm, PTree.stmtOf, stmtOf_norm sub, List.set_set]
theorem stmtOfL_norm : ∀ ps : List (StmtProver E), PTree.stmtOfL (normL ps) = PTree.stmtOfL ps
  | [] => rfl
  | p :: ps => by simp only [normL, PTree.stmtOfL, stmtOf_norm p, stmtOfL_norm ps]
end

mutual
theorem computeResponse_norm : ∀ (p : StmtProver E) (c : Int), PTree.computeResponse (norm p) c = PTree.computeResponse p c
  | .leaf p, c => rfl
  | .and s subs, c => by simp only [norm, PTree.computeResponse, computeResponseL_norm subs]
  | .or s idx stmts sub sims, c => by
    simp only [norm, PTree.computeResponse, computeResponse_norm sub, List.length_set]
theorem computeResponseL_norm : ∀ (ps : List (StmtProver E)) (c : Int),
    PTree.computeResponseL (normL ps) c = PTree.computeResponseL ps c
  | [], _ => rfl
  | p :: ps, c => by simp only [normL, PTree.computeResponseL, computeResponse_norm p, computeResponseL_norm ps]
end

mutual
theorem internalCommit_norm : ∀ (p : StmtProver E) (d : Option (Dict Int)),
    Tracks (PTree.internalCommit (norm p) d) (PTree.internalCommit p d) (fun a b => a.1 = b.1 ∧ norm a.2 = norm b.2)
  | .leaf p, d => by
    simp only [norm]
    exact (Tracks.refl _).mono fun a b h => by rw [h]; exact ⟨rfl, rfl⟩
  | .and s subs, d => by
    simp only [norm, PTree.internalCommit, stmtOfL_norm]
    refine Tracks.same fun σ => Tracks.same fun _ => Tracks.same fun d' => ?_
    refine (internalCommitL_norm subs d').bind ?_
    rintro ⟨vs, ps⟩ ⟨vs', ps'⟩ ⟨h1, h2⟩
    simp only at h1 h2
    subst h1
    exact Tracks.pure ⟨rfl, by simp only [norm, h2]⟩
  | .or s idx stmts sub sims, d => by
    simp only [norm, PTree.internalCommit, stmtOf_norm, List.set_set, List.length_set]
    refine Tracks.same fun σ => Tracks.same fun _ => ?_
    refine (internalCommit_norm sub none).bind ?_
    rintro ⟨v, p⟩ ⟨v', p'⟩ ⟨h1, h2⟩
    simp only at h1 h2
    subst h1
    refine Tracks.same fun vs => Tracks.pure ⟨rfl, ?_⟩
    simp only [norm, List.set_set, h2, ← stmtOf_norm p, ← stmtOf_norm p']
theorem internalCommitL_norm : ∀ (ps : List (StmtProver E)) (d : Dict Int),
    Tracks (PTree.internalCommitL (normL ps) d) (PTree.internalCommitL ps d)
      (fun a b => a.1 = b.1 ∧ normL a.2 = normL b.2)
  | [], d => by
    simp only [normL, PTree.internalCommitL]
    exact Tracks.pure ⟨rfl, rfl⟩
  | p :: ps, d => by
    simp only [normL, PTree.internalCommitL]
    refine (internalCommit_norm p (some d)).bind ?_
    rintro ⟨v, p1⟩ ⟨v', p1'⟩ ⟨h1, h2⟩
    simp only at h1 h2
    subst h1
    refine (internalCommitL_norm ps d).bind ?_
    rintro ⟨vs, ps1⟩ ⟨vs', ps1'⟩ ⟨h3, h4⟩
    simp only at h3 h4
    subst h3
    exact Tracks.pure ⟨rfl, by simp only [normL, h2, h4]⟩
end

theorem Tracks.comp {α β γ : Type} {x : PM α} {y : PM β} {z : PM γ} {R : α → β → Prop} {S : α → γ → Prop}
    {T : β → γ → Prop} (h : Tracks x y R) (k : Tracks x z S) (hT : ∀ a b c, R a b → S a c → T b c) : Tracks y z T := by
  intro w
  rcases h w with ⟨e, h1, h2⟩ | ⟨a, b, w', h1, h2, h3⟩
  · rcases k w with ⟨e', k1, k2⟩ | ⟨a', c, w'', k1, k2, k3⟩
    · rw [h2] at k2; cases k2
      exact .inl ⟨e, k1, h1⟩
    · rw [h2] at k2; cases k2
  · rcases k w with ⟨e', k1, k2⟩ | ⟨a', c, w'', k1, k2, k3⟩
    · rw [h2] at k2; cases k2
    · rw [h2] at k2; cases k2
      exact .inr ⟨b, c, w', k1, h1, hT a b c h3 k3⟩

theorem internalCommit_same {p q : StmtProver E} (h : norm p = norm q) (d : Option (Dict Int)) :
    Tracks (PTree.internalCommit p d) (PTree.internalCommit q d) (fun a b => a.1 = b.1 ∧ norm a.2 = norm b.2) := by
  refine (internalCommit_norm p d).comp (h ▸ internalCommit_norm q d) ?_
  rintro a b c ⟨h1, h2⟩ ⟨h3, h4⟩
  exact ⟨h1.symm.trans h3, h2.symm.trans h4⟩

theorem stmtOf_same {p q : StmtProver E} (h : norm p = norm q) : PTree.stmtOf p = PTree.stmtOf q := by
  rw [← stmtOf_norm p, h, stmtOf_norm]

theorem computeResponse_same {p q : StmtProver E} (h : norm p = norm q) (c : Int) :
    PTree.computeResponse p c = PTree.computeResponse q c := by
  rw [← computeResponse_norm p, h, computeResponse_norm]

theorem load_self (p : LeafProver E) : load (ProverOps.stmtOf p) p = p := by
  cases p <;> rfl

mutual
theorem precommit_tracks : ∀ (p : PlaceProver E) (h : Objs E), Fits p → Loaded h p → (objects (stmtIds p)).Nodup →
    Tracks (PTree.precommit (resolveP h p)) (precommit p h)
      (fun x y => x.1 = y.1 ∧ norm x.2 = norm (resolveP y.2.2 y.2.1) ∧ Frame (objects (stmtIds p)) h y.2.2 ∧
        Fits y.2.1 ∧ stmtIds y.2.1 = stmtIds p ∧ Loaded y.2.2 y.2.1)
  | .leaf (o, p), h, _, _, _ => by
    simp only [resolveP, PTree.precommit, precommit]
    refine Tracks.same fun ⟨v, p'⟩ => Tracks.pure ⟨rfl, ?_, frame_write h o _, ?_, rfl, ?_⟩
    · simp only [resolveP, write_same, load_self]
    · simp only [Fits]
    · simp only [Loaded, write_same, load_self]
  | .and s subs, h, hf, hl, hn => by
    simp only [Fits] at hf
    simp only [Loaded] at hl
    simp only [stmtIds, objects] at hn
    simp only [resolveP, PTree.precommit, precommit]
    refine (precommitL_tracks subs h hf hl hn).bind ?_
    rintro ⟨vs, ps⟩ ⟨vs', ps', h'⟩ ⟨h1, h2, h3, h4, h5, h6⟩
    simp only at h1 h2 h3 h4 h5 h6
    subst h1
    exact Tracks.pure ⟨rfl, by simp only [resolveP, norm, h2], by simpa only [stmtIds, objects] using h3,
      by simpa only [Fits] using h4, by simp only [stmtIds, h5], by simpa only [Loaded] using h6⟩
  | .or s idx stmts sub sims, h, hf, hl, hn => by
    simp only [Fits] at hf
    simp only [Loaded] at hl
    simp only [stmtIds, objects] at hn
    simp only [resolveP, PTree.precommit, precommit]
    refine (precommit_tracks sub h hf.1 hl (objects_nodup hn hf.2)).bind ?_
    rintro ⟨v, p⟩ ⟨v', p', h'⟩ ⟨h1, h2, h3, h4, h5, h6⟩
    simp only at h1 h2 h3 h4 h5 h6
    subst h1
    have hlen : (resolveL h stmts).length = stmts.length := by rw [resolveL_map, List.length_map]
    rw [hlen]
    refine Tracks.same fun vs => Tracks.pure ⟨rfl, ?_, ?_, ?_, rfl, ?_⟩
    · simp only [resolveP, norm, h2, stmtOf_same h2, PTree.or.injEq, true_and, and_true]
      simp only [resolveL_map]
      apply List.ext_getElem?
      intro j
      simp only [List.getElem?_set, List.length_map]
      by_cases hij : idx = j
      · simp only [hij, if_true]
      · simp only [hij, if_false, List.getElem?_map]
        cases hj : stmts[j]? with
        | none => rfl
        | some u =>
          simp only [Option.map_some, Option.some.injEq]
          exact (resolve_congr u fun o ho => h3 o fun ho' => objects_disjoint hn hf.2 hj hij o ho' ho).symm
    · simp only [stmtIds, objects]
      exact h3.mono fun o ho => mem_objectsL.mpr ⟨idx, _, hf.2, ho⟩
    · simp only [Fits]
      exact ⟨h4, by rw [h5]; exact hf.2⟩
    · simpa only [Loaded] using h6
theorem precommitL_tracks : ∀ (ps : List (PlaceProver E)) (h : Objs E), FitsL ps → LoadedL h ps →
    (objectsL (stmtIdsL ps)).Nodup →
    Tracks (PTree.precommitL (resolvePL h ps)) (precommitL ps h)
      (fun x y => x.1 = y.1 ∧ normL x.2 = normL (resolvePL y.2.2 y.2.1) ∧ Frame (objectsL (stmtIdsL ps)) h y.2.2 ∧
        FitsL y.2.1 ∧ stmtIdsL y.2.1 = stmtIdsL ps ∧ LoadedL y.2.2 y.2.1)
  | [], h, _, _, _ => by
    simp only [resolvePL, PTree.precommitL, precommitL]
    exact Tracks.pure ⟨rfl, rfl, Frame.refl _ _, by simp only [FitsL], rfl, by simp only [LoadedL]⟩
  | p :: ps, h, hf, hl, hn => by
    simp only [FitsL] at hf
    simp only [LoadedL] at hl
    simp only [stmtIdsL, objectsL] at hn
    obtain ⟨n1, n2, n3⟩ := List.nodup_append.mp hn
    simp only [resolvePL, PTree.precommitL, precommitL]
    refine (precommit_tracks p h hf.1 hl.1 n1).bind ?_
    rintro ⟨v, q⟩ ⟨v', q', h'⟩ ⟨h1, h2, h3, h4, h5, h6⟩
    simp only at h1 h2 h3 h4 h5 h6
    subst h1
    have hd : ∀ o ∈ objectsL (stmtIdsL ps), h' o = h o := fun o ho => h3 o fun ho' => n3 o ho' o ho rfl
    rw [← resolvePL_congr ps hf.2 hd]
    refine (precommitL_tracks ps h' hf.2 (loadedL_congr ps hf.2 hd hl.2) n2).bind ?_
    rintro ⟨vs, qs⟩ ⟨vs', qs', h''⟩ ⟨k1, k2, k3, k4, k5, k6⟩
    simp only at k1 k2 k3 k4 k5 k6
    subst k1
    have he : ∀ o ∈ objects (stmtIds q'), h'' o = h' o := fun o ho => k3 o fun ho' => n3 o (h5 ▸ ho) o ho' rfl
    refine Tracks.pure ⟨rfl, ?_, ?_, ?_, ?_, ?_⟩
    · simp only [normL, resolvePL, h2, k2, resolveP_congr q' h4 he]
    · simp only [stmtIdsL, objectsL]
      exact h3.trans k3 (fun o ho => by simp [ho]) (fun o ho => by simp [ho])
    · simp only [FitsL]; exact ⟨h4, k4⟩
    · simp only [stmtIdsL, h5, k5]
    · simp only [LoadedL]; exact ⟨loaded_congr q' h4 he h6, k6⟩
end

theorem leaf_commit_keeps {p p' : LeafProver E} {d : Option (Dict Int)} {v : Val E} {w w' : World}
    (h : (ProverOps.internalCommit p d : PM (Val E × LeafProver E)) w = .ok ((v, p'), w')) :
    ProverOps.stmtOf p' = ProverOps.stmtOf p := by
  cases p with
  | dlrep p =>
    simp only [ProverOps.internalCommit] at h
    obtain ⟨⟨v1, q⟩, w1, h1, h2⟩ := pm_bind.mp h
    simp only [pm_pure_iff, Prod.mk.injEq] at h2
    obtain ⟨⟨_, rfl⟩, _⟩ := h2
    simp only [DLRepProver.internalCommit] at h1
    obtain ⟨d', w2, _, h1⟩ := pm_bind.mp h1
    rw [pm_getStore_bind] at h1
    obtain ⟨ks, _, h1⟩ := pm_liftE_bind_iff.mp h1
    obtain ⟨com, _, h1⟩ := pm_liftE_bind_iff.mp h1
    simp only [pm_pure_iff, Prod.mk.injEq] at h1
    obtain ⟨⟨_, rfl⟩, _⟩ := h1
    rfl
  | ext p =>
    simp only [ProverOps.internalCommit] at h
    obtain ⟨⟨v1, q⟩, w1, h1, h2⟩ := pm_bind.mp h
    simp only [pm_pure_iff, Prod.mk.injEq] at h2
    obtain ⟨⟨_, rfl⟩, _⟩ := h2
    simp only [ExtProver.internalCommit] at h1
    cases hc : p.stmt.constructed with
    | none => rw [hc] at h1; exact (raise_ne.mp h1).elim
    | some t =>
      rw [hc] at h1
      cases hd : p.constructed with
      | none => rw [hd] at h1; exact (raise_ne.mp h1).elim
      | some cp =>
        rw [hd] at h1
        obtain ⟨⟨v2, cp'⟩, w2, _, h1⟩ := pm_bind.mp h1
        simp only [pm_pure_iff, Prod.mk.injEq] at h1
        obtain ⟨⟨_, rfl⟩, _⟩ := h1
        rfl

mutual
theorem commit_keeps : ∀ (p : StmtProver E) (d : Option (Dict Int)) {v : Val E} {p' : StmtProver E} {w w' : World},
    PTree.internalCommit p d w = .ok ((v, p'), w') → PTree.stmtOf p' = PTree.stmtOf p
  | .leaf p, d, v, p', w, w', h => by
    simp only [PTree.internalCommit] at h
    obtain ⟨⟨v1, q⟩, w1, h1, h2⟩ := pm_bind.mp h
    simp only [pm_pure_iff, Prod.mk.injEq] at h2
    obtain ⟨⟨_, rfl⟩, _⟩ := h2
    simp only [PTree.stmtOf, leaf_commit_keeps h1]
  | .and s subs, d, v, p', w, w', h => by
    simp only [PTree.internalCommit] at h
    rw [pm_getStore_bind] at h
    obtain ⟨_, _, h⟩ := pm_liftE_bind_iff.mp h
    obtain ⟨d', w1, _, h⟩ := pm_bind.mp h
    obtain ⟨⟨vs, qs⟩, w2, h1, h2⟩ := pm_bind.mp h
    simp only [pm_pure_iff, Prod.mk.injEq] at h2
    obtain ⟨⟨_, rfl⟩, _⟩ := h2
    simp only [PTree.stmtOf, commitL_keeps subs d' h1]
  | .or s idx stmts sub sims, d, v, p', w, w', h => by
    simp only [PTree.internalCommit] at h
    rw [pm_getStore_bind] at h
    obtain ⟨_, _, h⟩ := pm_liftE_bind_iff.mp h
    obtain ⟨⟨v1, q⟩, w2, h1, h2⟩ := pm_bind.mp h
    obtain ⟨vs, _, h2⟩ := pm_liftE_bind_iff.mp h2
    simp only [pm_pure_iff, Prod.mk.injEq] at h2
    obtain ⟨⟨_, rfl⟩, _⟩ := h2
    simp only [PTree.stmtOf, commit_keeps sub none h1]
theorem commitL_keeps : ∀ (ps : List (StmtProver E)) (d : Dict Int) {vs : List (Val E)} {ps' : List (StmtProver E)}
    {w w' : World}, PTree.internalCommitL ps d w = .ok ((vs, ps'), w') → PTree.stmtOfL ps' = PTree.stmtOfL ps
  | [], d, vs, ps', w, w', h => by
    simp only [PTree.internalCommitL, pm_pure_iff, Prod.mk.injEq] at h
    obtain ⟨⟨_, rfl⟩, _⟩ := h
    rfl
  | p :: ps, d, vs, ps', w, w', h => by
    simp only [PTree.internalCommitL] at h
    obtain ⟨⟨v1, q⟩, w1, h1, h⟩ := pm_bind.mp h
    obtain ⟨⟨vs1, qs⟩, w2, h2, h⟩ := pm_bind.mp h
    simp only [pm_pure_iff, Prod.mk.injEq] at h
    obtain ⟨⟨_, rfl⟩, _⟩ := h
    simp only [PTree.stmtOfL, commit_keeps p (some d) h1, commitL_keeps ps d h2]
end

/-- The commitment, together with the statement it leaves. -/
theorem internalCommit_same' {p q : StmtProver E} (h : norm p = norm q) (d : Option (Dict Int)) :
    Tracks (PTree.internalCommit p d) (PTree.internalCommit q d)
      (fun a b => a.1 = b.1 ∧ norm a.2 = norm b.2 ∧ PTree.stmtOf b.2 = PTree.stmtOf q) := by
  intro w
  rcases internalCommit_same h d w with h1 | ⟨a, b, w', h1, h2, h3, h4⟩
  · exact .inl h1
  · exact .inr ⟨a, b, w', h1, h2, h3, h4, commit_keeps q d h1⟩

theorem prove_tracks (env : Env E) (t : Tree Nat) (hn : (objects t).Nodup) (h : Objs E) (d : Dict Int) (message : String) :
    Tracks (Zksk.prove (LeafProver E) env (resolve h t) d message) (prove env t h d message)
      (fun x y => x = (y.1, resolve y.2 t) ∧ Frame (objects t) h y.2) := by
  unfold Zksk.prove prove
  refine (getProver_tracks d t h hn).bind ?_
  rintro ⟨p?', t'⟩ ⟨p?, h'⟩ ⟨hx, hf, hb⟩
  simp only [Prod.mk.injEq] at hx
  obtain ⟨rfl, rfl⟩ := hx
  cases p? with
  | none => exact Tracks.raise
  | some p =>
    obtain ⟨h1, h2, h3⟩ := hb p rfl
    subst h2
    simp only [Option.map_some]
    unfold PTree.getNizkProof getNizkProof
    simp only [bind_assoc]
    refine (precommit_tracks p h' h1 h3 hn).bind ?_
    rintro ⟨v, q⟩ ⟨v', q', h''⟩ ⟨k1, k2, k3, k4, k5, k6⟩
    simp only at k1 k2 k3 k4 k5 k6
    subst k1
    refine (internalCommit_same' k2 none).bind ?_
    rintro ⟨com, q1⟩ ⟨com', q1'⟩ ⟨m1, m2, m3⟩
    simp only at m1 m2 m3
    subst m1
    rw [stmtOf_same m2]
    refine Tracks.same fun σ => Tracks.same fun id => Tracks.same fun c => ?_
    rw [computeResponse_same m2]
    refine Tracks.same fun r => ?_
    simp only [pure_bind]
    refine Tracks.pure ⟨?_, hf.trans k3 (fun _ h => h) (fun _ h => h)⟩
    rw [stmtOf_same m2, m3, stmtOf_resolveP q' k4 k6, k5]

theorem converse_tracks (env : Env E) (t : Tree Nat) (hn : (objects t).Nodup) (h : Objs E) (d : Dict Int) (c : Int) :
    Tracks (do
        match ← PTree.getProver (resolve h t) d with
        | (none, _) => raise .attributeError
        | (some (p : StmtProver E), _) => do
          let (v, p1) ← PTree.precommit p
          let ((hash, com), p2) ← PTree.commit env p1
          let r ← PTree.computeResponse p2 c
          pure (v, hash, com, r, PTree.stmtOf p2)) (converse env t h d c)
      (fun x y => x = (y.1, y.2.1, y.2.2.1, y.2.2.2.1, resolve y.2.2.2.2 t) ∧ Frame (objects t) h y.2.2.2.2) := by
  unfold converse
  refine (getProver_tracks d t h hn).bind ?_
  rintro ⟨p?', t'⟩ ⟨p?, h'⟩ ⟨hx, hf, hb⟩
  simp only [Prod.mk.injEq] at hx
  obtain ⟨rfl, rfl⟩ := hx
  cases p? with
  | none => exact Tracks.raise
  | some p =>
    obtain ⟨h1, h2, h3⟩ := hb p rfl
    subst h2
    simp only [Option.map_some]
    refine (precommit_tracks p h' h1 h3 hn).bind ?_
    rintro ⟨v, q⟩ ⟨v', q', h''⟩ ⟨k1, k2, k3, k4, k5, k6⟩
    simp only at k1 k2 k3 k4 k5 k6
    subst k1
    unfold PTree.commit
    simp only [bind_assoc, pure_bind]
    rw [stmtOf_same k2]
    refine Tracks.same fun σ => Tracks.same fun id => ?_
    refine (internalCommit_same' k2 none).bind ?_
    rintro ⟨com, q1⟩ ⟨com', q1'⟩ ⟨m1, m2, m3⟩
    simp only at m1 m2 m3
    subst m1
    rw [stmtOf_same m2, computeResponse_same m2]
    refine Tracks.same fun r => ?_
    refine Tracks.pure ⟨?_, hf.trans k3 (fun _ h => h) (fun _ h => h)⟩
    rw [m3, stmtOf_resolveP q' k4 k6, k5]

theorem setSimulated_tracks (b : Bool) (h : Objs E) (t : Tree Nat) :
    Tree.setSimulated b (resolve h t) = resolve (setSimulated b h t).2 (setSimulated b h t).1 ∧
      objects (setSimulated b h t).1 = objects t ∧ Frame (objects t) h (setSimulated b h t).2 := by
  cases t with
  | leaf o => exact ⟨by simp only [resolve, setSimulated, write_same, Tree.setSimulated], rfl, frame_write _ _ _⟩
  | and s subs => exact ⟨by simp only [resolve, setSimulated, Tree.setSimulated], rfl, Frame.refl _ _⟩
  | or s subs => exact ⟨by simp only [resolve, setSimulated, Tree.setSimulated], rfl, Frame.refl _ _⟩

theorem simulate_tracks (env : Env E) (t : Tree Nat) (hn : (objects t).Nodup) (h : Objs E) (c : Option Int) :
    Tracks (Zksk.simulateTop env (resolve h t) c) (simulateTop env h t c)
      (fun x y => x = (y.1, y.2.1, resolve y.2.2.2 y.2.2.1) ∧ Frame (objects t) h y.2.2.2) := by
  obtain ⟨h1, h2, h3⟩ := setSimulated_tracks true h t
  unfold Zksk.simulateTop simulateTop
  rw [h1]
  refine (prepareSim_tracks _ _ (by rw [h2]; exact hn)).bind ?_
  rintro t' h' ⟨rfl, hf⟩
  refine Tracks.same fun tr => Tracks.same fun σ => Tracks.same fun id => Tracks.pure ⟨rfl, ?_⟩
  rw [h2] at hf
  exact h3.trans hf (fun _ h => h) (fun _ h => h)

end Zksk.Alias

namespace Zksk.Alias

open Zksk Spec

variable {E : Type} [AddCommGroup E] [DecidableEq E]

/-! ### Expressions -/

mutual
theorem resolve_identities {h : Objs E} : ∀ {t : Tree (Placed E)}, Hold h t → resolve h (identities t) = separate t
  | .leaf p, k => by simp only [identities, resolve, separate, k p (by simp [places])]
  | .and s subs, k => by
    simp only [identities, resolve, separate]; rw [resolve_identitiesL (fun p hp => k p (by simpa [places] using hp))]
  | .or s subs, k => by
    simp only [identities, resolve, separate]; rw [resolve_identitiesL (fun p hp => k p (by simpa [places] using hp))]
theorem resolve_identitiesL {h : Objs E} : ∀ {ts : List (Tree (Placed E))}, (∀ p ∈ placesL ts, h p.obj = p.leaf) →
    resolveL h (identitiesL ts) = separateL ts
  | [], _ => rfl
  | t :: ts, k => by
    simp only [placesL, List.mem_append] at k
    simp only [identitiesL, resolveL, separateL]
    rw [resolve_identities (fun p hp => k p (.inl hp)), resolve_identitiesL (fun p hp => k p (.inr hp))]
end

mutual
theorem objects_identities : ∀ t : Tree (Placed E), objects (identities t) = (places t).map Placed.obj
  | .leaf p => rfl
  | .and s subs => by simp only [identities, objects, places, objects_identitiesL subs]
  | .or s subs => by simp only [identities, objects, places, objects_identitiesL subs]
theorem objects_identitiesL : ∀ ts : List (Tree (Placed E)), objectsL (identitiesL ts) = (placesL ts).map Placed.obj
  | [] => rfl
  | t :: ts => by
    simp only [identitiesL, objectsL, placesL, List.map_append, objects_identities t, objects_identitiesL ts]
end

theorem make_nodup_obj (objs : Nat → Leaf E) (b : Build) (n : Nat) : ((places (b.make objs n).1).map Placed.obj).Nodup := by
  rcases (make_places objs b n).2 with ⟨p, h⟩ | ⟨h, _⟩
  · rw [h]; simp [places]
  · exact h

theorem make_nodup (objs : Nat → Leaf E) (b : Build) (n : Nat) : (objects (identities (b.make objs n).1)).Nodup := by
  rw [objects_identities]; exact make_nodup_obj objs b n

theorem hold_of_nodup : ∀ (l : List (Placed E)), (l.map Placed.obj).Nodup → ∃ h : Objs E, ∀ p ∈ l, h p.obj = p.leaf
  | [], _ => ⟨fun _ => .dlrep ⟨⟨⟨0, 0, false⟩, 0⟩, [], [], [], false⟩, by simp⟩
  | p :: l, hn => by
    simp only [List.map_cons, List.nodup_cons] at hn
    obtain ⟨h, hh⟩ := hold_of_nodup l hn.2
    refine ⟨write h p.obj p.leaf, fun q hq => ?_⟩
    rcases List.mem_cons.mp hq with rfl | hq
    · exact write_same _ _ _
    · rw [frame_write h p.obj p.leaf q.obj, hh q hq]
      simp only [List.mem_singleton]
      exact fun e => hn.1 (List.mem_map.mpr ⟨q, hq, e⟩)

theorem make_hold (objs : Nat → Leaf E) (b : Build) (n : Nat) : ∃ h, Hold h (b.make objs n).1 :=
  hold_of_nodup _ (make_nodup_obj objs b n)

end Zksk.Alias
