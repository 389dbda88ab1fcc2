import Verif.Lemmas.Progress2
import Verif.SpecExt

/-! Plain statements whose proofs depend on some secrets only. -/

set_option linter.unusedSectionVars false

namespace Zksk

open Spec

variable {E : Type} [AddCommGroup E] [DecidableEq E]

theorem get?_same {α : Type} {S : Sec → Prop} {σ σ' : Store} (hs : Same S σ σ') :
    ∀ {d : Dict α}, (∀ e ∈ d, S e.1) → ∀ {x : Sec}, S x → Dict.get? σ' d x = Dict.get? σ d x
  | [], _, x, _ => rfl
  | (k, v) :: d, hd, x, hx => by
    simp only [Dict.get?, hs k (hd (k, v) (by simp)), hs x hx]
    rw [get?_same hs (fun e he => hd e (by simp [he])) hx]

theorem uniq_same {α : Type} {S : Sec → Prop} {σ σ' : Store} (hs : Same S σ σ') :
    ∀ {d : Dict α}, (∀ e ∈ d, S e.1) → d.Uniq σ → d.Uniq σ'
  | [], _, _ => trivial
  | (k, v) :: d, hd, h => by
    refine ⟨?_, uniq_same hs (fun e he => hd e (by simp [he])) h.2⟩
    rw [get?_same hs (fun e he => hd e (by simp [he])) (hd (k, v) (by simp))]
    exact h.1

theorem mem_set_key {α : Type} {σ : Store} : ∀ {d : Dict α} {s : Sec} {v : α} {e : Sec × α},
    e ∈ Dict.set σ d s v → (∃ e' ∈ d, e'.1 = e.1) ∨ e.1 = s
  | [], s, v, e, h => by simp [Dict.set] at h; exact .inr (by rw [h])
  | (k, w) :: d, s, v, e, h => by
    simp only [Dict.set] at h
    split at h
    · rcases List.mem_cons.mp h with rfl | h
      · exact .inl ⟨(k, w), by simp, rfl⟩
      · exact .inl ⟨e, by simp [h], rfl⟩
    · rcases List.mem_cons.mp h with rfl | h
      · exact .inl ⟨(k, w), by simp, rfl⟩
      · rcases mem_set_key h with ⟨e', he', h⟩ | h
        · exact .inl ⟨e', by simp [he'], h⟩
        · exact .inr h

theorem mem_update_key {α : Type} {σ : Store} {S : Sec → Prop} : ∀ {d' d : Dict α},
    (∀ e ∈ d, S e.1) → (∀ e ∈ d', S e.1) → ∀ e ∈ Dict.update σ d d', S e.1
  | [], d, hd, _ => hd
  | (k, v) :: d', d, hd, hd' => by
    refine mem_update_key (d' := d') (d := Dict.set σ d k v) (fun e he => ?_) fun e he => hd' e (by simp [he])
    rcases mem_set_key he with ⟨e', h1, h2⟩ | h
    · exact h2 ▸ hd e' h1
    · rw [h]; exact hd' (k, v) (by simp)

/-- Fit leaf provers that depend only on secrets in `S`. -/
def FitIn (S : Sec → Prop) (X : Key → Int) (σ : Store) (p : DLRepProver E) : Prop :=
  FitRep σ X p ∧ (∀ x ∈ p.stmt.secretVars, S x) ∧ ∀ e ∈ p.secretValues, S e.1

/-- Leaves that depend only on secrets in `S`. -/
def InRep (S : Sec → Prop) (s : DLRep E) : Prop :=
  (SolidRep s ∧ Torsion (.leaf s)) ∧ (∀ x ∈ s.secretVars, S x) ∧ ∀ e ∈ s.secretValues, S e.1

theorem getProver_dlrep_values {s s' : DLRep E} {d : Dict Int} {p? : Option (DLRepProver E)} {w w' : World}
    (h : DLRepProver.getProver s d w = .ok ((p?, s'), w')) :
    s'.secretValues = Dict.update w.store s.secretValues d := by
  unfold DLRepProver.getProver at h
  rw [pm_getStore_bind] at h
  split at h
  · rw [pm_pure_iff, Prod.mk.injEq, Prod.mk.injEq] at h
    rw [← h.1.2]
  · rw [pm_pure_iff, Prod.mk.injEq, Prod.mk.injEq] at h
    rw [← h.1.2]

theorem getLaws_in (S : Sec → Prop) (σ : Store) (d : Dict Int) (X : Key → Int)
    (hu : updateSecretValues σ d = σ) (hd : d.Uniq σ) (hS : ∀ e ∈ d, S e.1) :
    GetLaws (E := E) (InRep S) (TrueRep σ d X) (fun _ => True) (FitIn (E := E) S X σ) σ d where
  upd := hu
  get := by
    intro l l' p? w w' hg ht hw h
    obtain ⟨f1, f2, f3, f4⟩ := (getLaws_true (E := E) σ d X hu hd).get l l' p? w w' hg.1 ht hw h
    have hv := getProver_dlrep_values h
    obtain ⟨_, e2, e3⟩ := getProver_dlrep h
    have h2 : l'.secretVars = l.secretVars := by have := congrArg DLRep.secretVars e2; exact this
    have hk : ∀ e ∈ Dict.update w.store l.secretValues d, S e.1 := mem_update_key hg.2.2 hS
    refine ⟨f1, ⟨f2, by rw [h2]; exact hg.2.1, by rw [hv]; exact hk⟩, f3, fun p hp => ?_⟩
    refine ⟨⟨(f4 p hp).1, ?_, ?_⟩, (f4 p hp).2⟩
    · have h3 : p.stmt.secretVars = l.secretVars := by
        have := congrArg DLRep.secretVars (e3 p hp).1; exact this
      rw [h3]; exact hg.2.1
    · rw [(e3 p hp).2.2]; exact hk
  prep := by
    intro l l' w w' hg hw h
    obtain ⟨f1, f2, f3, f4, f5⟩ := (getLaws_true (E := E) σ d X hu hd).prep l l' w w' hg.1 hw h
    have h' : (pure l : PM (DLRep E)) w = .ok (l', w') := h
    rw [pm_pure_iff, Prod.mk.injEq] at h'
    obtain ⟨rfl, rfl⟩ := h'
    exact ⟨f1, hg, f3, f4, f5⟩
  simAcc := (getLaws_true (E := E) σ d X hu hd).simAcc
  simLaw := (getLaws_true (E := E) σ d X hu hd).simLaw

theorem mem_knownSecretsL {ks : List (Core E)} {x : Sec} :
    x ∈ knownSecretsL ks ↔ ∃ k ∈ ks, x ∈ knownSecrets k := by
  induction ks with
  | nil => simp [knownSecretsL]
  | cons k ks ih => simp [knownSecretsL, ih]

theorem good_in (S : Sec → Prop) : ∀ (t : Core E), Solid t → Torsion t → (∀ x ∈ secrets t, S x) →
    (∀ x ∈ knownSecrets t, S x) → Good (InRep S) t := by
  intro t
  induction t using Tree.ind with
  | leaf s =>
    intro h ht h1 h2
    exact .leaf s ⟨⟨h, ht⟩, h1, fun e he => h2 e.1 (by simp only [knownSecrets]; exact List.mem_map_of_mem he)⟩
  | and s subs ih =>
    intro h ht h1 h2
    refine .and s subs h.1 fun t hm => ih t hm (solidL_iff.mp h.2 t hm) (fun x b hx => ht x b ?_)
      (fun x hx => h1 x ?_) (fun x hx => h2 x ?_)
    · simp only [terms]; exact mem_termsL.mpr ⟨t, hm, hx⟩
    · simp only [secrets]; exact mem_secretsL.mpr ⟨t, hm, hx⟩
    · simp only [knownSecrets]; exact mem_knownSecretsL.mpr ⟨t, hm, hx⟩
  | or s subs ih =>
    intro h ht h1 h2
    refine .or s subs h.1 fun t hm => ih t hm (solidL_iff.mp h.2 t hm) (fun x b hx => ht x b ?_)
      (fun x hx => h1 x ?_) (fun x hx => h2 x ?_)
    · simp only [terms]; exact mem_termsL.mpr ⟨t, hm, hx⟩
    · simp only [secrets]; exact mem_secretsL.mpr ⟨t, hm, hx⟩
    · simp only [knownSecrets]; exact mem_knownSecretsL.mpr ⟨t, hm, hx⟩

theorem secrets_of_good_in {S : Sec → Prop} {t : Core E} (h : Good (InRep S) t) : ∀ x ∈ secrets t, S x := by
  induction h with
  | leaf s h => exact h.2.1
  | and s ts hne _ ih =>
    intro x hx
    simp only [secrets] at hx
    obtain ⟨t, ht, hx⟩ := mem_secretsL.mp hx
    exact ih t ht x hx
  | or s ts hne _ ih =>
    intro x hx
    simp only [secrets] at hx
    obtain ⟨t, ht, hx⟩ := mem_secretsL.mp hx
    exact ih t ht x hx

/-- `get_prover` on a satisfied statement that depends on secrets in `S`. -/
theorem getProver_in {S : Sec → Prop} {t : Core E} {d : Dict Int} {w : World} {X : Key → Int} (hs : Solid t)
    (ht : Torsion t) (h1 : ∀ x ∈ secrets t, S x) (h2 : ∀ x ∈ knownSecrets t, S x)
    (hu : updateSecretValues w.store d = w.store) (hd : d.Uniq w.store) (hS : ∀ e ∈ d, S e.1)
    (hX : Satisfied w.store d X t) :
    ∃ p t' w1, (PTree.getProver t d : PM (Option (CoreProver E) × Core E)) w = .ok ((some p, t'), w1) ∧
      w1.store = w.store ∧ Tree.blank t' = Tree.blank t ∧ Primed (FitIn S X w.store) p ∧
      Honest (fun p _ => FitIn S X w.store p) w.store p X ∧ Tree.blank (PTree.stmtOf p) = Tree.blank t ∧
      Aside (InRep S) (fun _ => True) p := by
  obtain ⟨p, t', w1, h⟩ := getProver_progress hu hd t (good_both t hs ht) hX w rfl
  obtain ⟨e1, _, e2, e3⟩ := getProver_full (getLaws_in S w.store d X hu hd hS) X t (good_in S t hs ht h1 h2)
    (sat_of_satisfied hX) t' (some p) w w1 rfl h
  obtain ⟨f1, f2, f3, f4⟩ := e3 p rfl
  exact ⟨p, t', w1, h, e1, e2, f1, f2, f3, f4⟩

theorem fitIn_stab (S : Sec → Prop) (X : Key → Int) : ∀ (p : DLRepProver E) σ σ', FitIn S X σ p →
    Same S σ σ' → FitIn S X σ' p := by
  intro p σ σ' h hs
  obtain ⟨⟨h1, h2, h3, h4, h5⟩, h6, h7⟩ := h
  refine ⟨⟨h1, h2, fun x hx => ?_, ?_, h5⟩, h6, h7⟩
  · rw [get?_same hs h7 (h6 x hx), h3 x hx, hs x (h6 x hx)]
  · cases h4 with
    | rep _ _ i1 i2 =>
      refine .rep _ _ i1 (i2.trans ?_)
      congr 1
      have : ∀ (vs : List Sec) (bs : List (Pt E)), (∀ x ∈ vs, S x) →
          List.zipWith (fun x b => X (σ.key x) • b.val) vs bs =
            List.zipWith (fun x b => X (σ'.key x) • b.val) vs bs := by
        intro vs
        induction vs with
        | nil => intro bs _; simp
        | cons v vs ih =>
          intro bs hv
          cases bs with
          | nil => simp
          | cons b bs =>
            simp only [List.zipWith_cons_cons, hs v (hv v (by simp)),
              ih bs fun x hx => hv x (by simp [hx])]
      exact this _ _ h6

theorem honest_in (S : Sec → Prop) {σ σ' : Store} (hs : Same S σ σ') : ∀ (p : CoreProver E) (X Y : Key → Int),
    Honest (fun p _ => FitIn S X σ p) σ p Y → Aside (InRep S) (fun _ => True) p →
    Honest (fun p _ => FitIn S X σ' p) σ' p Y := by
  intro p
  induction p using PTree.ind with
  | leaf p =>
    intro X Y h _
    cases h with
    | leaf _ _ h => exact .leaf p Y (fitIn_stab S X p σ σ' h hs)
  | and s subs ih =>
    intro X Y h ha
    cases h with
    | and _ _ _ h =>
    cases ha with
    | and _ _ _ ha => exact .and s subs Y fun p hp => ih p hp X Y (h p hp) (ha p hp)
  | or s idx stmts sub sims ih =>
    intro X Y h ha
    cases h with
    | or _ _ _ _ _ _ Y' h1 h2 h =>
    cases ha with
    | or _ _ _ _ _ hg ha =>
    refine .or s idx stmts sub sims Y Y' h1 (simsOK_same h2 fun x hx => hs x ?_) (ih X Y' h ha)
    obtain ⟨t, ht, k, hk, hx⟩ := hx
    rw [(core_secrets hk).1] at hx
    exact secrets_of_good_in (hg t ht).1 x hx

theorem primed_in (S : Sec → Prop) {σ σ' : Store} (hs : Same S σ σ') {p : CoreProver E} {X : Key → Int}
    (h : Primed (FitIn S X σ) p) : Primed (FitIn S X σ') p := by
  induction h with
  | leaf p h => exact .leaf p (fitIn_stab S X p σ σ' h hs)
  | and s subs hne _ ih => exact .and s subs hne ih
  | or s i stmts sub sims h1 h2 h3 _ ih => exact .or s i stmts sub sims h1 h2 h3 ih

theorem mem_terms_secrets : ∀ (t : Core E) {x : Sec} {b : Pt E}, (x, b) ∈ terms t → x ∈ secrets t := by
  intro t
  induction t using Tree.ind with
  | leaf s => intro x b h; exact (List.of_mem_zip h).1
  | and s subs ih =>
    intro x b h
    simp only [terms] at h
    obtain ⟨t, ht, h⟩ := mem_termsL.mp h
    simp only [secrets]
    exact mem_secretsL.mpr ⟨t, ht, ih t ht h⟩
  | or s subs ih =>
    intro x b h
    simp only [terms] at h
    obtain ⟨t, ht, h⟩ := mem_termsL.mp h
    simp only [secrets]
    exact mem_secretsL.mpr ⟨t, ht, ih t ht h⟩

theorem sameOrders_same {σ σ' : Store} {t : Core E} (hs : ∀ x ∈ secrets t, σ'.key x = σ.key x)
    (h : SameOrders σ t) : SameOrders σ' t := by
  intro x b y c hx hy he
  refine h x b y c hx hy ?_
  rw [← hs x (mem_terms_secrets t hx), ← hs y (mem_terms_secrets t hy)]; exact he

theorem composable_same {σ σ' : Store} {t : Core E} (h : Composable σ t) :
    (∀ x ∈ secrets t, σ'.key x = σ.key x) → Composable σ' t := by
  induction h with
  | leaf s => intro _; exact .leaf s
  | and b subs ho hp h ih =>
    intro hs
    refine .and b subs (sameOrders_same hs ho) ?_ fun t ht => ih t ht fun x hx => hs x ?_
    · intro pre u post hu x hx y hy
      have := orAt_secrets hu
      rw [hs x (by rw [this]; simp [hx]), hs y (by
        rw [this]; simp only [List.mem_append] at hy ⊢; tauto)]
      exact hp pre u post hu x hx y hy
    · simp only [secrets]; exact mem_secretsL.mpr ⟨t, ht, hx⟩
  | or b subs ho h ih =>
    intro hs
    refine .or b subs (sameOrders_same hs ho) fun t ht => ih t ht fun x hx => hs x ?_
    simp only [secrets]; exact mem_secretsL.mpr ⟨t, ht, hx⟩

end Zksk
