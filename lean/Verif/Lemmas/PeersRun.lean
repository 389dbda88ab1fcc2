import Verif.Lemmas.Peers
import Mathlib.Data.Fintype.EquivFin
import Mathlib.Data.Fintype.Pi
import Mathlib.Data.Finite.Prod

/-! Runs of people in the same position. -/

set_option linter.unusedSectionVars false

namespace Zksk.Peer

open Spec

variable {E : Type} [AddCommGroup E] [DecidableEq E]

/-! ### The same statement -/

mutual
theorem blank_of_shape : ∀ (t u : Core E), shape t = shape u → secrets t = secrets u →
    Tree.blank t = Tree.blank u
  | .leaf s, u, h, h' => by
    cases u with
    | leaf s' =>
      simp only [shape, Skel.rep.injEq] at h
      simp only [secrets] at h'
      refine congrArg Tree.leaf ?_
      show s.norm = s'.norm
      simp only [DLRep.norm, h.1, h.2.1, h']
    | and _ _ => simp [shape] at h
    | or _ _ => simp [shape] at h
  | .and _ ts, u, h, h' => by
    cases u with
    | leaf s' => simp [shape] at h
    | and _ us =>
      simp only [shape, Skel.all.injEq] at h
      simp only [secrets] at h'
      simp only [Tree.blank, blankL_of_shape ts us h h']
    | or _ _ => simp [shape] at h
  | .or _ ts, u, h, h' => by
    cases u with
    | leaf s' => simp [shape] at h
    | and _ us => simp [shape] at h
    | or _ us =>
      simp only [shape, Skel.any.injEq] at h
      simp only [secrets] at h'
      simp only [Tree.blank, blankL_of_shape ts us h h']
theorem blankL_of_shape : ∀ (ts us : List (Core E)), shapeL ts = shapeL us → secretsL ts = secretsL us →
    Tree.blankL ts = Tree.blankL us
  | [], us, h, h' => by
    cases us with
    | nil => rfl
    | cons _ _ => simp [shapeL] at h
  | t :: ts, us, h, h' => by
    cases us with
    | nil => simp [shapeL] at h
    | cons u us =>
      simp only [shapeL, List.cons.injEq] at h
      simp only [secretsL] at h'
      obtain ⟨h1, h2⟩ := List.append_inj h' (length_of_shape t u h.1)
      simp only [Tree.blankL, blank_of_shape t u h.1 h1, blankL_of_shape ts us h.2 h2]
theorem length_of_shape : ∀ (t u : Core E), shape t = shape u → (secrets t).length = (secrets u).length
  | .leaf s, u, h => by
    cases u with
    | leaf s' =>
      simp only [shape, Skel.rep.injEq] at h
      exact h.2.2
    | and _ _ => simp [shape] at h
    | or _ _ => simp [shape] at h
  | .and _ ts, u, h => by
    cases u with
    | leaf s' => simp [shape] at h
    | and _ us =>
      simp only [shape, Skel.all.injEq] at h
      exact lengthL_of_shape ts us h
    | or _ _ => simp [shape] at h
  | .or _ ts, u, h => by
    cases u with
    | leaf s' => simp [shape] at h
    | and _ us => simp [shape] at h
    | or _ us =>
      simp only [shape, Skel.any.injEq] at h
      exact lengthL_of_shape ts us h
theorem lengthL_of_shape : ∀ (ts us : List (Core E)), shapeL ts = shapeL us →
    (secretsL ts).length = (secretsL us).length
  | [], us, h => by
    cases us with
    | nil => rfl
    | cons _ _ => simp [shapeL] at h
  | t :: ts, us, h => by
    cases us with
    | nil => simp [shapeL] at h
    | cons u us =>
      simp only [shapeL, List.cons.injEq] at h
      simp only [secretsL, List.length_append, length_of_shape t u h.1, lengthL_of_shape ts us h.2]
end

/-! ### Up to the commitment -/

/-- Both see the same identifier. -/
theorem same_id {σ σ' : Store} {t u u' : Core E} (hs : SeesSame σ σ' (secrets t))
    (hb : Tree.blank u = Tree.blank t) (hb' : Tree.blank u' = Tree.blank t) :
    ∃ id, Tree.proofId σ u = .ok id ∧ Tree.proofId σ' u' = .ok id ∧ Tree.proofId σ t = .ok id := by
  obtain ⟨id, _, hid, _⟩ := Tree.proofId_isOk (σ := σ) (skel_core t)
  refine ⟨id, ?_, ?_, hid⟩
  · rw [← hid]
    refine (Tree.proofId_eq_iff (skel_core _) (skel_core _) (secretVars_core _) (secretVars_core _)).mpr
      ⟨(shape_blank _ _ hb).1, ?_⟩
    show SamePattern ((secrets u).map σ.name) ((secrets t).map σ.name)
    rw [(shape_blank _ _ hb).2]
    refine ⟨rfl, fun i j a b a' b' h1 h2 h3 h4 => ?_⟩
    rw [h1] at h3; rw [h2] at h4
    cases h3; cases h4; exact Iff.rfl
  · rw [← hid]
    refine ((Tree.proofId_eq_iff (skel_core _) (skel_core _) (secretVars_core _) (secretVars_core _)).mpr
      ⟨((shape_blank _ _ hb').1).symm, ?_⟩).symm
    show SamePattern ((secrets t).map σ.name) ((secrets u').map σ'.name)
    rw [(shape_blank _ _ hb').2]
    exact hs.1

/-- What is known before the challenge: precommitment, identifier before committing, commitment, the prover, and the
identifier after committing. -/
structure Before (E : Type) where
  precommitment : Val E
  id1 : PId E
  commitment : Val E
  prover : CoreProver E
  id2 : PId E

/-- Everything a prover does before it needs the challenge. -/
def preRun (t : Core E) (d : Dict Int) : PM (Before E) := do
  let (p?, _) ← (PTree.getProver t d : PM (Option (CoreProver E) × Core E))
  match p? with
  | none => raise .attributeError
  | some p => do
    let (v, p1) ← PTree.precommit p
    let σ ← getStore
    let id1 ← liftE (Tree.proofId σ (PTree.stmtOf p1))
    let (com, p2) ← PTree.internalCommit p1 none
    let σ ← getStore
    let id2 ← liftE (Tree.proofId σ (PTree.stmtOf p2))
    pure ⟨v, id1, com, p2, id2⟩

theorem pm_bind_error {A B : Type} {p : PM A} {f : A → PM B} {w : World} {e : Err} (h : p w = .error e) :
    (p >>= f) w = .error e := by
  show (p w >>= fun x => f x.1 x.2) = .error e
  rw [h]
  rfl

theorem honestRun_pre {env : Env E} {t : Core E} {d : Dict Int} {c : Int} {w : World} {a : Before E} {σ : Store}
    {r' : Nat → Nat} {r : Val E} (h : preRun t d w = .ok (a, ⟨σ, r'⟩))
    (hr : ∀ s, PTree.computeResponse a.prover c ⟨σ, s⟩ = .ok (r, ⟨σ, s⟩)) :
    honestRun env t d c w = .ok ((a.precommitment, ⟨env.digest a.id1, a.commitment, c, r⟩), ⟨σ, r'⟩) := by
  unfold preRun at h
  obtain ⟨⟨p?, t1⟩, w1, h1, h⟩ := pm_bind.mp h
  cases p? with
  | none => cases h
  | some p =>
  simp only at h
  obtain ⟨⟨v, p1⟩, w2, h2, h⟩ := pm_bind.mp h
  rw [pm_getStore_bind, pm_liftE_bind_iff] at h
  obtain ⟨id1, h3, h⟩ := h
  obtain ⟨⟨com, p2⟩, w3, h4, h⟩ := pm_bind.mp h
  rw [pm_getStore_bind, pm_liftE_bind_iff] at h
  obtain ⟨id2, h5, h⟩ := h
  rw [pm_pure_iff, Prod.mk.injEq] at h
  obtain ⟨rfl, rfl⟩ := h
  unfold honestRun
  rw [pm_bind_eq h1]
  simp only
  rw [pm_bind_eq h2]
  simp only at h3 ⊢
  have hc : PTree.commit env p1 w2 = .ok (((env.digest id1, com), p2), ⟨σ, r'⟩) := by
    unfold PTree.commit
    rw [pm_getStore_bind, h3, pm_liftE_bind, pm_bind_eq h4]
    rfl
  rw [pm_bind_eq hc]
  simp only
  rw [pm_bind_eq (hr r')]
  rfl

theorem proofOf_pre {env : Env E} {t : Core E} {d : Dict Int} {m : String} {w : World} {a : Before E} {σ : Store}
    {r' : Nat → Nat} {r : Int → Val E} (h : preRun t d w = .ok (a, ⟨σ, r'⟩))
    (hr : ∀ c, env.fiatShamir a.id2 a.precommitment a.commitment m = .ok c →
      ∀ s, PTree.computeResponse a.prover c ⟨σ, s⟩ = .ok (r c, ⟨σ, s⟩)) :
    proofOf env t d m w = (match env.fiatShamir a.id2 a.precommitment a.commitment m with
      | .ok c => .ok (⟨c, r c, a.precommitment, env.digest a.id2⟩, ⟨σ, r'⟩)
      | .error e => .error e) := by
  unfold preRun at h
  obtain ⟨⟨p?, t1⟩, w1, h1, h⟩ := pm_bind.mp h
  cases p? with
  | none => cases h
  | some p =>
  simp only at h
  obtain ⟨⟨v, p1⟩, w2, h2, h⟩ := pm_bind.mp h
  rw [pm_getStore_bind, pm_liftE_bind_iff] at h
  obtain ⟨id1, h3, h⟩ := h
  obtain ⟨⟨com, p2⟩, w3, h4, h⟩ := pm_bind.mp h
  rw [pm_getStore_bind, pm_liftE_bind_iff] at h
  obtain ⟨id2, h5, h⟩ := h
  rw [pm_pure_iff, Prod.mk.injEq] at h
  obtain ⟨rfl, rfl⟩ := h
  simp only at h5 hr ⊢
  cases hf : env.fiatShamir id2 v com m with
  | ok c =>
    have hn : PTree.getNizkProof env p m w1 =
        .ok ((⟨c, r c, v, env.digest id2⟩, p2), ⟨σ, r'⟩) := by
      unfold PTree.getNizkProof
      rw [pm_bind_eq h2]
      simp only
      rw [pm_bind_eq h4]
      simp only
      rw [pm_getStore_bind]
      simp only
      rw [h5, pm_liftE_bind, hf, pm_liftE_bind, pm_bind_eq (hr c hf r')]
      rfl
    have hp : prove (DLRepProver E) env t d m w =
        .ok ((⟨c, r c, v, env.digest id2⟩, PTree.stmtOf p2), ⟨σ, r'⟩) := by
      unfold prove
      rw [pm_bind_eq h1]
      simp only
      rw [pm_bind_eq hn]
      rfl
    unfold proofOf
    rw [pm_bind_eq hp]
    rfl
  | error e =>
    have hn : PTree.getNizkProof env p m w1 = .error e := by
      unfold PTree.getNizkProof
      rw [pm_bind_eq h2]
      simp only
      rw [pm_bind_eq h4]
      simp only
      rw [pm_getStore_bind]
      simp only
      rw [h5, pm_liftE_bind, hf]
      rfl
    have hp : prove (DLRepProver E) env t d m w = .error e := by
      unfold prove
      rw [pm_bind_eq h1]
      simp only
      exact pm_bind_error hn
    unfold proofOf
    exact pm_bind_error hp

/-- What the runs of two people have in common. -/
def Alike (σ σ' : Store) (c : Int) (a : Before E) (τ : Store) (b : Before E) (τ' : Store) : Prop :=
  (τ = σ ∧ τ' = σ') ∧ a.precommitment = b.precommitment ∧ a.id1 = b.id1 ∧ a.commitment = b.commitment ∧
    a.id2 = b.id2 ∧ ∃ r, (∀ s, PTree.computeResponse a.prover c ⟨σ, s⟩ = .ok (r, ⟨σ, s⟩)) ∧
      ∀ s, PTree.computeResponse b.prover c ⟨σ', s⟩ = .ok (r, ⟨σ', s⟩)

theorem get_heapFor (t : Core E) (d : Dict Int) (σ0 : Store) :
    starting σ0 (PTree.getProver t d : PM (Option (CoreProver E) × Core E)) =
      starting (heapFor σ0 d t) (PTree.getProver t d) := by
  cases t with
  | leaf s => rfl
  | and b ts =>
    rw [heapFor_eq σ0 d (by simp)]
    funext r
    unfold starting
    simp only [PTree.getProver]
    rw [pm_getStore_bind, pm_getStore_bind, updateSecretValues_idem]
    rfl
  | or b ts =>
    rw [heapFor_eq σ0 d (by simp)]
    funext r
    unfold starting
    simp only [PTree.getProver]
    rw [pm_getStore_bind, pm_getStore_bind, updateSecretValues_idem]
    rfl

/-- The assumptions about two people who prove the same statement. -/
structure Pair (M : Nat) (σ0 : Store) (d : Dict Int) (X : Key → Int) (t : Core E) (σ0' : Store) (d' : Dict Int)
    (X' : Key → Int) (t' : Core E) : Prop where
  pos : M ≠ 0
  solid : Solid t
  tors : Torsion t
  dvd : ∀ x b, (x, b) ∈ terms t → b.grp.order ∣ M
  shp : shape t' = shape t
  sec : secrets t' = secrets t
  uniq : d.Uniq (heapFor σ0 d t)
  uniq' : d'.Uniq (heapFor σ0' d' t')
  comp : Composable (heapFor σ0 d t) t
  comp' : Composable (heapFor σ0' d' t') t'
  sees : SeesSame (heapFor σ0 d t) (heapFor σ0' d' t') (secrets t)
  peers : Peers (heapFor σ0 d t) d X (heapFor σ0' d' t') d' X' true t t'

variable {M : Nat} {σ0 σ0' : Store} {d d' : Dict Int} {X X' : Key → Int} {t t' : Core E}

theorem preRun_twin (h : Pair M σ0 d X t σ0' d' X' t') (c : Int) :
    Twin M (Alike (heapFor σ0 d t) (heapFor σ0' d' t') c) (starting σ0 (preRun t d))
      (starting σ0' (preRun t' d')) := by
  have hb : Tree.blank t' = Tree.blank t := blank_of_shape _ _ h.shp h.sec
  have hr : Ready M (secrets t) (heapFor σ0 d t) (heapFor σ0' d' t') t :=
    ⟨good_of_solid t h.solid, h.comp, composable_blank h.comp' t hb.symm, fun x hx => hx, h.dvd, h.tors⟩
  have hV : SameKeys (heapFor σ0 d t) (heapFor σ0' d' t') (secrets t) := h.sees.2
  have hst : (∀ s, t ≠ .leaf s) → updateSecretValues (heapFor σ0 d t) d = heapFor σ0 d t ∧
      updateSecretValues (heapFor σ0' d' t') d' = heapFor σ0' d' t' := by
    intro hl
    have hl' : ∀ s, t' ≠ .leaf s := by
      rintro s rfl
      cases t with
      | leaf s => exact hl s rfl
      | and _ _ => simp [Tree.blank] at hb
      | or _ _ => simp [Tree.blank] at hb
    rw [heapFor_eq σ0 d hl, heapFor_eq σ0' d' hl']
    exact ⟨updateSecretValues_idem _ _, updateSecretValues_idem _ _⟩
  have hget := peers_get hV h.uniq h.uniq' h.peers hr hb hst
  rw [← get_heapFor, ← get_heapFor] at hget
  unfold preRun
  refine .bind hget ?_
  rintro ⟨p?, t1⟩ τ ⟨p?', t1'⟩ τ' ⟨⟨rfl, rfl⟩, -, -, h3, -⟩
  obtain ⟨p, p', e, e', hm⟩ := h3 rfl
  simp only at e e'
  subst e; subst e'
  obtain ⟨v, v1, v2⟩ := mates_precommit hm
  refine .bind (Twin.ends (Q := fun a τ b τ' => a = (v, p) ∧ b = (v, p') ∧ τ = heapFor σ0 d t ∧
    τ' = heapFor σ0' d' t') ⟨rfl, rfl, rfl, rfl⟩ (fun r => v1 _) fun r => v2 _) ?_
  rintro a τ b τ' ⟨rfl, rfl, rfl, rfl⟩
  have hbm := mates_blank hm
  obtain ⟨id, i1, i2, i3⟩ := same_id h.sees hbm.1 hbm.2
  refine .get (.lift i1 i2 ?_)
  refine .bind (commit_twin h.pos hV hm hr c none none trivial) ?_
  rintro ⟨com, p2⟩ τ ⟨com', p2'⟩ τ' ⟨⟨rfl, rfl⟩, h1, h2, h4, r, h5, h6⟩
  simp only at h1 h2 h4 h5 h6
  refine .get (.lift (by rw [h2]; exact i1) (by rw [h4]; exact i2) ?_)
  exact .pure ⟨⟨rfl, rfl⟩, rfl, rfl, h1, rfl, r, h5, h6⟩

/-! ### Matching of blocks -/

/-- Matchings that depend on something both sides can compute are put together. -/
theorem mix {Y C : Type} [Finite Y] (e : C → Equiv.Perm Y) (F F' : Y → C) (h : ∀ c y, F' (e c y) = F y) :
    ∃ e' : Equiv.Perm Y, ∀ y, e' y = e (F y) y := by
  have hinj : Function.Injective fun y => e (F y) y := by
    intro y z hyz
    simp only at hyz
    have h1 : F y = F z := by rw [← h (F y) y, hyz, h]
    rw [h1] at hyz
    exact (e (F z)).injective hyz
  exact ⟨Equiv.ofBijective _ (Finite.injective_iff_bijective.mp hinj), fun y => rfl⟩

theorem preRun_perm (h : Pair M σ0 d X t σ0' d' X' t') : ∃ N, ∀ n, N ≤ n → ∀ c : Int,
    ∃ e : Equiv.Perm (Fin n → Fin M), ∀ y, ∃ a τ b τ', Alike (heapFor σ0 d t) (heapFor σ0' d' t') c a τ b τ' ∧
      ∀ rest, ∃ r', preRun t d ⟨σ0, tape y rest⟩ = .ok (a, ⟨τ, r'⟩) ∧
        preRun t' d' ⟨σ0', tape (e y) rest⟩ = .ok (b, ⟨τ', r'⟩) := by
  obtain ⟨N, hN⟩ := (preRun_twin h 0).reads
  exact ⟨N, fun n hn c => (preRun_twin h c).perm_of h.pos (hN.mono hn) fun _ => rfl⟩

theorem runs_same (h : Pair M σ0 d X t σ0' d' X' t') (env : Env E) (c : Int) :
    SameResults M (honestRun env t d c) σ0 (honestRun env t' d' c) σ0' ∧
      Succeeds M (honestRun env t d c) σ0 := by
  obtain ⟨N, hN⟩ := preRun_perm h
  refine ⟨⟨N, fun n hn => ?_⟩, N, fun n hn y rest => ?_⟩
  · obtain ⟨e, he⟩ := hN n hn c
    refine ⟨e, fun y rest => ?_⟩
    obtain ⟨a, τ, b, τ', ⟨⟨rfl, rfl⟩, h1, h2, h3, h4, r, h5, h6⟩, h7⟩ := he y
    obtain ⟨r', h8, h9⟩ := h7 rest
    rw [honestRun_pre h8 h5, honestRun_pre h9 h6, h1, h2, h3]
    rfl
  · obtain ⟨e, he⟩ := hN n hn c
    obtain ⟨a, τ, b, τ', ⟨⟨rfl, rfl⟩, h1, h2, h3, h4, r, h5, h6⟩, h7⟩ := he y
    obtain ⟨r', h8, h9⟩ := h7 rest
    exact ⟨_, _, honestRun_pre h8 h5⟩

theorem proofs_same (h : Pair M σ0 d X t σ0' d' X' t') (env : Env E) (m : String) :
    SameResults M (proofOf env t d m) σ0 (proofOf env t' d' m) σ0' := by
  obtain ⟨N, hN⟩ := preRun_perm h
  refine ⟨N, fun n hn => ?_⟩
  choose e he using hN n hn
  let chal : Except Err (Before E × World) → Int := fun x => match x with
    | .ok (a, _) => match env.fiatShamir a.id2 a.precommitment a.commitment m with
      | .ok c => c
      | .error _ => 0
    | .error _ => 0
  obtain ⟨e', he'⟩ := mix e (fun y => chal (preRun t d ⟨σ0, tape y fun _ => 0⟩))
    (fun y => chal (preRun t' d' ⟨σ0', tape y fun _ => 0⟩)) (by
      intro c y
      obtain ⟨a, τ, b, τ', ⟨⟨rfl, rfl⟩, h1, h2, h3, h4, r, h5, h6⟩, h7⟩ := he c y
      obtain ⟨r', h8, h9⟩ := h7 fun _ => 0
      rw [h8, h9]
      simp only [chal, h1, h3, h4])
  refine ⟨e', fun y rest => ?_⟩
  rw [he' y]
  obtain ⟨a, τ, b, τ', ⟨⟨rfl, rfl⟩, h1, h2, h3, h4, r, h5, h6⟩, h7⟩ :=
    he (chal (preRun t d ⟨σ0, tape y fun _ => 0⟩)) y
  obtain ⟨r0, h8, _⟩ := h7 fun _ => 0
  obtain ⟨r', h10, h11⟩ := h7 rest
  rw [h8] at h5 h6 h11 ⊢
  have key : ∀ c, env.fiatShamir a.id2 a.precommitment a.commitment m = .ok c →
      chal (.ok (a, ⟨heapFor σ0 d t, r0⟩)) = c := by
    intro c hc
    simp only [chal, hc]
  rw [proofOf_pre (r := fun _ => r) h10 (fun c hc => by rw [← key c hc]; exact h5),
    proofOf_pre (r := fun _ => r) h11 (fun c hc => by
      rw [← key c (by rw [h1, h3, h4]; exact hc)]; exact h6), h1, h3, h4]
  cases env.fiatShamir b.id2 b.precommitment b.commitment m <;> rfl

end Zksk.Peer
