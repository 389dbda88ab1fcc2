import Verif.Lemmas.ChanceProver
import Verif.Lemmas.Programmed

/-! Runs of statements whose commitments cannot be predicted. -/

set_option linter.unusedSectionVars false

namespace Zksk.Chance

open Spec Peer

variable {E : Type} [AddCommGroup E] [DecidableEq E]

theorem steps_inTurn {A : Type} {Q : A → Store → Prop} {f : (Nat → Nat) → Except Err (A × World)} (h : InTurn Q f) :
    Steps Q f := by
  induction h with
  | done a σ h hf => exact .done a σ h hf
  | fail e hf => exact .fail e hf
  | @step f _ ih =>
    refine .step fun k => ?_
    have e : (fun r => f (scons k r)) = fun r => f fun i => match i with | 0 => k | i + 1 => r i := by
      funext r
      congr 1
    rw [e]
    exact ih k

theorem inTurn_steps {A : Type} {Q : A → Store → Prop} {f : (Nat → Nat) → Except Err (A × World)} (h : Steps Q f) :
    InTurn Q f := by
  induction h with
  | done a σ h hf => exact .done a σ h hf
  | fail e hf => exact .fail e hf
  | @step f _ ih =>
    refine .step fun k => ?_
    have e : (fun r => f (scons k r)) = fun r => f fun i => match i with | 0 => k | i + 1 => r i := by
      funext r
      congr 1
    exact e ▸ ih k

/-! ### Statements without extended parts -/

/-- The point in a commitment. -/
def point : Val E → Option E
  | .pt p => some p.val
  | _ => none

theorem lin_lookup {σ : Store} {D : Dict Int} : ∀ {vs : List Sec} {ks : List Int} {bs : List (Pt E)},
    DLRep.lookupAll σ D vs = .ok ks →
    (List.zipWith (fun w b => w • b.val) ks bs).sum =
      ((vs.zip bs).map fun e => Dict.fn σ 0 D (σ.key e.1) • e.2.val).sum
  | [], ks, bs, h => by
    simp only [DLRep.lookupAll, Except.ok.injEq] at h
    subst h; simp
  | x :: vs, ks, bs, h => by
    simp only [DLRep.lookupAll] at h
    obtain ⟨v, hv, h⟩ := bind_ok_iff.mp h
    obtain ⟨ks', hks, h⟩ := bind_ok_iff.mp h
    simp only [Except.ok.injEq] at h
    subst h
    cases bs with
    | nil => simp
    | cons b bs =>
      have hg : Dict.get? σ D x = some v := by
        unfold Dict.get at hv
        cases hh : Dict.get? σ D x with
        | none => rw [hh] at hv; cases hv
        | some v' => rw [hh] at hv; injection hv with hv; rw [hv]
      have := lin_lookup (bs := bs) hks
      simp only [List.zipWith_cons_cons, List.sum_cons, List.zip_cons_cons, List.map_cons, this]
      rw [Dict.get?_fn hg]

/-- The part of committing after the dictionary. -/
theorem leaf_point {s : DLRep E} {σ : Store} {D : Dict Int} {ks : List Int} {com : Pt E}
    (h1 : DLRep.lookupAll σ D s.secretVars = .ok ks) (h2 : DLRepProver.commitWith s ks = .ok com) :
    point (content (.pt com)) = some (lin σ D s) := by
  have hp : point (content (.pt com)) = some com.val := by
    simp only [content]
    split <;> rfl
  rw [hp]
  unfold DLRepProver.commitWith at h2
  cases hb : s.bases with
  | nil => rw [hb] at h2; cases h2
  | cons b bs =>
    rw [hb] at h2
    rw [commitGo_ok _ _ _ _ h2]
    simp only [Grp.inf, zero_add, Option.some.injEq]
    unfold lin
    rw [hb]
    exact lin_lookup h1

/-- Provers of representations. -/
def dlC (q M : Nat) (p : DLRepProver E) (s : DLRep E) : Prop := p.stmt = s ∧ Fits q M s

theorem coreKit {q M : Nat} (hM : M ≠ 0) (hq : 0 < q) (name : Sec → String) :
    Kit (E := E) (L := DLRep E) (P := DLRepProver E) q M (dlC q M) (fun _ => False) name where
  pos := hM
  pos' := hq
  steps := fun p o σ => dlrep_commit_steps σ p o
  shows' := by
    rintro p s ⟨rfl, _⟩
    refine ⟨point, fun D w com p' w' h hc => ?_⟩
    change DLRepProver.internalCommit p (some D) w = _ at h
    unfold DLRepProver.internalCommit at h
    obtain ⟨D', w1, h1, h⟩ := pm_bind.mp h
    rw [pm_getStore_bind] at h
    obtain ⟨ks, h2, h⟩ := pm_liftE_bind_iff.mp h
    obtain ⟨c, h3, h⟩ := pm_liftE_bind_iff.mp h
    rw [pm_pure_iff] at h
    simp only [Prod.mk.injEq] at h
    obtain ⟨⟨rfl, _⟩, _⟩ := h
    obtain ⟨e1, e2, e3⟩ := update_covers (fun r D w h => by
      obtain ⟨g1, g2, _⟩ := DLRep.getRandomizers_ok h
      exact ⟨g1, g2⟩) hc rfl h1
    rw [leaf_point h2 h3, e1, e3]
  vars := by
    rintro p s vs ⟨rfl, _⟩ h x hx
    change Except.ok p.stmt.secretVars = _ at h
    injection h with h
    rw [← h]; exact hx
  alone := by
    rintro p s x b σ v ⟨rfl, hfit⟩ hf hσ
    change Seldom M q _ (starting σ (DLRepProver.internalCommit p none))
    unfold DLRepProver.internalCommit
    have hrand : Steps (Same σ) (starting σ (DLRep.updateRandomizers p.stmt none)) := dlrep_random σ p.stmt
    have hend : ∀ D (a : Val E × DLRepProver E) w w', w.store = σ →
        (do let σ ← getStore
            let ks ← liftE (DLRep.lookupAll σ D p.stmt.secretVars)
            let com ← liftE (DLRepProver.commitWith p.stmt ks)
            pure (.pt com, { p with ks := some ks }) : PM (Val E × DLRepProver E)) w = .ok (a, w') →
        point (content a.1) = some (lin σ D p.stmt) := by
      intro D a w w' hw h
      rw [pm_getStore_bind] at h
      obtain ⟨ks, h2, h⟩ := pm_liftE_bind_iff.mp h
      obtain ⟨c, h3, h⟩ := pm_liftE_bind_iff.mp h
      rw [pm_pure_iff] at h
      simp only [Prod.mk.injEq] at h
      obtain ⟨rfl, _⟩ := h
      rw [hw] at h2
      exact leaf_point h2 h3
    cases hpv : point v with
    | none =>
      refine .never fun r a w h hp => ?_
      obtain ⟨D, w1, h1, h⟩ := pm_bind.mp h
      have := hend D a w1 w (hrand.result (r := r) h1) h
      rw [hp, hpv] at this
      cases this
    | some c =>
      refine Seldom.before (P := fun D => lin σ D p.stmt = c) ?_ hrand fun D a w w' hw hk hp => ?_
      · cases hb : p.stmt.bases with
        | nil =>
          obtain ⟨i, _, h2, _⟩ := hf
          rw [hb] at h2; simp at h2
        | cons b0 bs =>
          have e : starting σ (DLRep.updateRandomizers p.stmt none) =
              starting σ (Tree.drawDict ((Tree.dedupGo σ p.stmt.secretVars []).map fun x => (x, b0.grp.order))) := by
            funext r
            simp only [starting, DLRep.updateRandomizers, Tree.updateRandomizersWith, DLRep.getRandomizers, hb]
            rw [pm_getStore_bind, drawAll_eq]
          rw [e]
          have hb0 : b0 ∈ p.stmt.bases := by rw [hb]; simp
          refine draws_seldom hM hq ?_ ?_ (by rw [hσ]; exact hf) ?_ c
          · exact DLRep.uniq_dedup _ _ _ _ (by rw [List.map_map]; simp [Function.comp_def]; rfl)
          · intro e he
            obtain ⟨y, _, rfl⟩ := List.mem_map.mp he
            exact hfit.2 b0 hb0
          · rcases Tree.dedupGo_mem σ p.stmt.secretVars [] x (free_mem hf) with ⟨y, hy, _⟩ | h
            · cases hy
            · refine Option.isSome_iff_exists.mpr (DLRep.get?_some_of_keys ?_)
              rw [List.map_map]
              simp only [Function.comp_def, List.map_id']
              exact h
      · have := hend D a w w' hw hk
        rw [hp, hpv] at this
        exact (Option.some.inj this).symm
  opened := fun p o σ v h => h.elim

theorem fits_norm {q M : Nat} {s : DLRep E} (vals : Dict Int) (b : Bool) (h : Fits q M s) :
    Fits q M { s with secretValues := vals, simulated := b } := h

theorem coreMore {q M : Nat} (name : Sec → String) :
    More (L := DLRep E) (DLRepProver E) q M (dlC q M) (fun _ => False) name (Fits q M) (Fresh q name)
      (fun p => Fresh q name p.stmt) where
  regular := by
    intro s hs vs bs h1 h2
    simp only [Tree.secretVars, Tree.bases] at h1 h2
    change Except.ok s.secretVars = _ at h1
    change Except.ok s.bases = _ at h2
    injection h1 with h1
    injection h2 with h2
    rw [← h1, ← h2]
    exact hs
  getProver := by
    intro s d σ hs hσ
    change Steps _ (starting σ (DLRepProver.getProver s d))
    unfold DLRepProver.getProver
    refine .get ?_
    dsimp only
    split
    · exact .pure ⟨hσ, hs, by simp⟩
    · refine .pure ⟨hσ, hs, fun p hp => ?_⟩
      simp only [Option.some.injEq] at hp
      subst hp
      exact ⟨hs, fun h => h⟩
  precommit := by
    intro p σ hs hσ
    refine .pure ⟨hσ, by simp, hs, fun h => .inr ?_⟩
    obtain ⟨i, x, b, h⟩ := h
    exact ⟨p.stmt, x, b, ⟨rfl, hs⟩, i, h⟩
  prepare := fun s σ hs hσ => .pure ⟨hσ, hs⟩
  simulate := by
    intro s d c σ
    change Steps _ (starting σ (DLRep.simulate s d c))
    unfold DLRep.simulate
    refine (updateWith_steps (dlrep_random σ s) d).bind fun d' τ hτ => ?_
    subst hτ
    refine (challenge_steps c _).bind fun c' τ hτ => ?_
    subst hτ
    exact .get (.lift fun _ _ => .lift fun _ _ => .pure rfl)

theorem core_not_bytes (p : DLRepProver E) (o : Option (Dict Int)) (w : World) (a : Val E × DLRepProver E) (w' : World)
    (h : ProverOps.internalCommit (L := DLRep E) p o w = .ok (a, w')) (b : List UInt8) : a.1 ≠ .bytes b := by
  change DLRepProver.internalCommit p o w = _ at h
  unfold DLRepProver.internalCommit at h
  obtain ⟨_, _, _, h⟩ := pm_bind.mp h
  rw [pm_getStore_bind] at h
  obtain ⟨_, _, h⟩ := pm_liftE_bind_iff.mp h
  obtain ⟨_, _, h⟩ := pm_liftE_bind_iff.mp h
  rw [pm_pure_iff] at h
  simp only [Prod.mk.injEq] at h
  obtain ⟨rfl, _⟩ := h
  simp

theorem wakes_live {q M : Nat} {name : Sec → String} {p : CoreProver E} (h : Wakes (fun p => Fresh q name p.stmt) p)
    (hs : Sound (Fits q M) p) : Live q name (dlC q M) (fun _ => False) p := by
  induction h with
  | leaf p h =>
    obtain ⟨i, x, b, h⟩ := h
    cases hs with
    | leaf _ hs => exact .inr ⟨p.stmt, x, b, .leaf p ⟨rfl, hs⟩, i, h⟩
  | and b subs p hp _ ih =>
    cases hs with
    | and _ _ hs => exact live_and hp (ih (hs p hp))
  | or b i stmts sub sims hi _ ih =>
    cases hs with
    | or _ _ _ _ _ _ hs =>
      rcases ih hs with h | ⟨s, x, g, h, hf⟩
      · exact .inl (.orOpn _ _ _ _ _ hi h)
      · exact .inl (.orDir _ _ _ _ _ s x g hi h hf)

/-! ### Statements with extended parts -/

/-- Provers of leaves that show the commitment of the representation. -/
def dlS (q M : Nat) : LeafProver E → DLRep E → Prop
  | .dlrep p, s => dlC q M p s
  | .ext p, s => ∃ cp k, p.constructed = some cp ∧ p.stmt.constructed = some k ∧
      Tree.secretVars k = Tree.secretVars (PTree.stmtOf cp) ∧ Dir (dlC q M) s cp ∧ Reg q M cp

/-- Provers of leaves with open places. -/
def opS (q M : Nat) (name : Sec → String) : LeafProver E → Prop
  | .dlrep _ => False
  | .ext p => p.constructed = none ∨ ∃ cp, p.constructed = some cp ∧ Opn q name (dlC q M) (fun _ => False) cp ∧ Reg q M cp

theorem ext_steps (p : ExtProver E) (o : Option (Dict Int)) (σ : Store) :
    Steps (Same σ) (starting σ (p.internalCommit o)) := by
  unfold ExtProver.internalCommit
  cases p.stmt.constructed with
  | none => exact .raise
  | some k =>
    cases p.constructed with
    | none => exact .raise
    | some cp => exact (commit_steps (fun p o σ => dlrep_commit_steps σ p o) cp o σ).bind fun _ τ hτ => .pure hτ

theorem ext_commit_ok {p : ExtProver E} {cp : CoreProver E} (hc : p.constructed = some cp) {o : Option (Dict Int)} {w w' : World}
    {a : Val E × ExtProver E} (h : p.internalCommit o w = .ok (a, w')) :
    ∃ cp', PTree.internalCommit cp o w = .ok ((a.1, cp'), w') := by
  unfold ExtProver.internalCommit at h
  cases hk : p.stmt.constructed with
  | none => rw [hk] at h; exact (raise_ne.mp h).elim
  | some k =>
    simp only [hk, hc] at h
    obtain ⟨⟨v, cp'⟩, w1, h1, h⟩ := pm_bind.mp h
    rw [pm_pure_iff] at h
    simp only [Prod.mk.injEq] at h
    obtain ⟨rfl, rfl⟩ := h
    exact ⟨cp', h1⟩

theorem ext_seldom {q M : Nat} {p : ExtProver E} {cp : CoreProver E} (hc : p.constructed = some cp) {o : Option (Dict Int)}
    {σ : Store} {v : Val E} (h : Seldom M q (fun a => content a.1 = v) (starting σ (PTree.internalCommit cp o))) :
    Seldom M q (fun a => content a.1 = v) (starting σ (p.internalCommit o)) := by
  unfold ExtProver.internalCommit
  cases p.stmt.constructed with
  | none => exact .never fun r a w h => by cases h
  | some k =>
    simp only [hc]
    refine h.before (commit_steps (fun p o σ => dlrep_commit_steps σ p o) cp o σ) fun a b w w' _ hk hp => ?_
    rw [pm_pure_iff] at hk
    simp only [Prod.mk.injEq] at hk
    obtain ⟨rfl, _⟩ := hk
    exact hp

theorem wrap_seldom {q M : Nat} {A B : Type} {m : PM (Val E × A)} {f : A → B} {σ : Store} {v : Val E}
    (hs : Steps (Same σ) (starting σ m)) (h : Seldom M q (fun a => content a.1 = v) (starting σ m)) :
    Seldom M q (fun a => content a.1 = v) (starting σ (do let (v, p') ← m; pure (v, f p'))) := by
  refine h.before hs fun a b w w' _ hk hp => ?_
  rw [pm_pure_iff] at hk
  simp only [Prod.mk.injEq] at hk
  obtain ⟨rfl, _⟩ := hk
  exact hp

theorem stmtKit {q M : Nat} (hM : M ≠ 0) (hq : 0 < q) (name : Sec → String) :
    Kit (E := E) (L := Leaf E) (P := LeafProver E) q M (dlS q M) (opS q M name) name where
  pos := hM
  pos' := hq
  steps := fun p o σ => by
    cases p with
    | dlrep p => exact (dlrep_commit_steps σ p o).bind fun _ τ hτ => .pure hτ
    | ext p => exact (ext_steps p o σ).bind fun _ τ hτ => .pure hτ
  shows' := by
    intro p s h
    cases p with
    | dlrep p =>
      obtain ⟨φ, hφ⟩ := (coreKit hM hq name).shows' p s h
      refine ⟨φ, fun D w com p' w' h hc => ?_⟩
      obtain ⟨⟨v, p1⟩, w1, h1, h⟩ := pm_bind.mp h
      rw [pm_pure_iff] at h
      simp only [Prod.mk.injEq] at h
      obtain ⟨⟨rfl, _⟩, rfl⟩ := h
      exact hφ D w v p1 _ h1 hc
    | ext p =>
      obtain ⟨cp, k, hcp, hk, _, hd, hr⟩ := h
      obtain ⟨φ, hφ⟩ := dir_shows (coreKit hM hq name) hd
      refine ⟨φ, fun D w com p' w' h hc => ?_⟩
      obtain ⟨⟨v, p1⟩, w1, h1, h⟩ := pm_bind.mp h
      rw [pm_pure_iff] at h
      simp only [Prod.mk.injEq] at h
      obtain ⟨⟨rfl, _⟩, rfl⟩ := h
      obtain ⟨cp', h2⟩ := ext_commit_ok hcp h1
      exact hφ D w v cp' _ h2 hc
  vars := by
    intro p s vs h hv x hx
    cases p with
    | dlrep p => exact (coreKit hM hq name).vars p s vs h hv x hx
    | ext p =>
      obtain ⟨cp, k, hcp, hk, hvars, hd, hr⟩ := h
      have hv' : Tree.secretVars k = .ok vs := by
        change (do (← p.stmt.inner).secretVars : Except Err (List Sec)) = _ at hv
        simp only [Ext.inner, hk] at hv
        exact hv
      exact dir_vars (coreKit hM hq name) hd vs (hvars ▸ hv') x hx
  alone := by
    intro p s x b σ v h hf hσ
    cases p with
    | dlrep p => exact wrap_seldom (dlrep_commit_steps σ p none) ((coreKit hM hq name).alone p s x b σ v h hf hσ)
    | ext p =>
      obtain ⟨cp, k, hcp, hk, hvars, hd, hr⟩ := h
      exact wrap_seldom (ext_steps p none σ) (ext_seldom hcp (dir_alone (coreKit hM hq name) hf hd hr hσ v))
  opened := by
    intro p o σ v h hσ
    cases p with
    | dlrep p => exact h.elim
    | ext p =>
      rcases h with h | ⟨cp, hcp, ho, hr⟩
      · refine wrap_seldom (ext_steps p o σ) (.never fun r a w h' => ?_)
        unfold starting ExtProver.internalCommit at h'
        cases hk : p.stmt.constructed with
        | none => rw [hk] at h'; cases h'
        | some k => simp only [hk, h] at h'; cases h'
      exact wrap_seldom (ext_steps p o σ) (ext_seldom hcp (opn_seldom (coreKit hM hq name) ho hr o σ hσ v))

theorem regular_inner {q M : Nat} {e : Ext E} (h : ∀ k, e.constructed = some k → ∀ s, HasLeaf s k → Fits q M s) :
    Regular q M (.leaf (Leaf.ext e) : Stmt E) := by
  intro vs bs h1 h2
  simp only [Tree.secretVars, Tree.bases] at h1 h2
  change (do (← e.inner).secretVars : Except Err (List Sec)) = _ at h1
  change (do (← e.inner).bases : Except Err (List (Pt E))) = _ at h2
  cases hk : e.constructed with
  | none => simp only [Ext.inner, hk] at h1; cases h1
  | some k =>
    simp only [Ext.inner, hk] at h1 h2
    exact every_regular (coreMore (q := q) (M := M) (fun _ => "")) k (h k hk) vs bs h1 h2

theorem stmtMore {q M : Nat} (name : Sec → String) :
    More (L := Leaf E) (LeafProver E) q M (dlS q M) (opS q M name) name (LeafFits q M name) (LeafFresh q name)
      (fun p => LeafFresh q name (ProverOps.stmtOf p)) where
  regular := by
    intro l hl
    cases l with
    | dlrep s => exact (coreMore (q := q) (M := M) name).regular s hl
    | ext e => exact regular_inner (ExtFits.constructed hl)
  getProver := by
    intro l d σ hl hσ
    cases l with
    | dlrep s =>
      refine ((coreMore (q := q) (M := M) name).getProver s d σ hl hσ).bind fun a τ ⟨hτ, ha, hb⟩ => .pure ⟨hτ, ha, fun p hp => ?_⟩
      simp only [Option.map_eq_some_iff] at hp
      obtain ⟨p', hp', rfl⟩ := hp
      exact hb p' hp'
    | ext e =>
      refine Steps.pure (σ := updateSecretValues σ d) ⟨(updateSecret_name σ d).trans hσ, hl, fun p hp => ?_⟩
      simp only [Option.map_some, Option.some.injEq] at hp
      subst hp
      exact ⟨hl, fun h => h⟩
  precommit := by
    intro p σ hl hσ
    cases p with
    | dlrep p =>
      refine .pure ⟨hσ, by simp, hl, fun h => .inr ?_⟩
      obtain ⟨i, x, b, h⟩ := h
      exact ⟨p.stmt, x, b, ⟨rfl, hl⟩, i, h⟩
    | ext p =>
      have hl' : ExtFits q M name p.stmt := hl
      have key : Steps (fun a τ => τ.name = name ∧ (∀ b, a.1 ≠ .bytes b) ∧ ExtFits q M name a.2.stmt ∧
          (LeafFresh q name (.ext p.stmt) → opS q M name (.ext a.2) ∨ ∃ s x g, dlS q M (.ext a.2) s ∧ Free q name s x g))
          (starting σ (ExtProver.precommit p)) := by
        unfold ExtProver.precommit
        refine (steps_inTurn (hl'.precommit σ hσ)).bind fun v τ ⟨hτ, hv⟩ => ?_
        refine .get (.lift fun e' he' => .lift fun k hk => ?_)
        unfold Ext.fullConstruct at he'
        obtain ⟨k0, hk0, he'⟩ := bind_ok_iff.mp he'
        simp only [Except.ok.injEq] at he'
        subst he'
        simp only [Ext.inner, Except.ok.injEq] at hk
        subst hk
        have hfit := hl'.construct τ v k0 hτ hk0
        have hk := (getProver_steps (coreMore (q := q) (M := M) name) k0 p.secretValues τ hfit hτ).also
          (P := fun a _ => Tree.blank a.2 = Tree.blank k0 ∧ ∀ p, a.1 = some p → Tree.blank (PTree.stmtOf p) = Tree.blank k0)
          fun r a w h => getProver_keeps keepCore p.secretValues k0 a.2 a.1 ⟨τ, r⟩ w h
        refine hk.bind fun a τ' ⟨⟨hτ', ha, hb⟩, hk1, hk2⟩ => .pure ⟨hτ', hv, ⟨hl'.precommit, hl'.simPrecommit, hl'.construct, ?_⟩, ?_⟩
        · intro k he
          simp only [Option.some.injEq] at he
          subst he
          exact ha
        · intro hfr
          obtain ⟨p?, t'⟩ := a
          cases p? with
          | none => exact .inl (.inl rfl)
          | some cp =>
            obtain ⟨h1, h2⟩ := hb cp rfl
            have hw := h2 (hfr τ v k0 hτ hk0)
            have hlive := wakes_live hw h1
            have hreg := sound_reg (coreMore (q := q) (M := M) name) h1
            have hv : Tree.secretVars t' = Tree.secretVars (PTree.stmtOf cp) := by
              have e : secrets t' = secrets (PTree.stmtOf cp) := (shape_blank _ _ (hk1.trans (hk2 cp rfl).symm)).2
              rw [secretVars_core, secretVars_core]
              exact congrArg Except.ok e
            rcases hlive with ho | ⟨s, x, g, hd, hf⟩
            · exact .inl (.inr ⟨cp, rfl, ho, hreg⟩)
            · exact .inr ⟨s, x, g, ⟨cp, t', rfl, rfl, hv, hd, hreg⟩, hf⟩
      exact key.bind fun a τ ⟨hτ, h1, h2, h3⟩ => .pure ⟨hτ, h1, h2, h3⟩
  prepare := by
    intro l σ hl hσ
    cases l with
    | dlrep s => exact .pure ⟨hσ, hl⟩
    | ext e =>
      have hl' : ExtFits q M name e := hl
      have key : Steps (fun a τ => τ.name = name ∧ ExtFits q M name a) (starting σ (Ext.prepareSim e)) := by
        unfold Ext.prepareSim
        refine (steps_inTurn (hl'.simPrecommit σ hσ)).bind fun v τ hτ => ?_
        refine .get (.liftEnd fun e' he' => ?_)
        unfold Ext.fullConstruct at he'
        obtain ⟨k0, hk0, he'⟩ := bind_ok_iff.mp he'
        simp only [Except.ok.injEq] at he'
        subst he'
        refine ⟨hτ, hl'.precommit, hl'.simPrecommit, hl'.construct, ?_⟩
        intro k he
        simp only [Option.some.injEq] at he
        subst he
        exact hl'.construct τ v k0 hτ hk0
      exact key.bind fun a τ ⟨hτ, h1⟩ => .pure ⟨hτ, h1⟩
  simulate := by
    intro l d c σ
    cases l with
    | dlrep s => exact (coreMore (q := q) (M := M) name).simulate s d c σ
    | ext e =>
      change Steps _ (starting σ (Ext.simulate e d c))
      unfold Ext.simulate
      exact .lift fun k _ => (simulate_steps (coreMore (q := q) (M := M) name).simulate k d c σ).bind fun _ τ hτ => .pure hτ

end Zksk.Chance
