import Mathlib.Data.List.Forall2
import Verif.SpecOwn
import Verif.Model.Interactive
import Verif.Lemmas.Transfer

/-! A verifier does the same with its own secret objects: every step of the verification commutes with renaming. -/

set_option linter.unusedSectionVars false

namespace Zksk

open Spec

variable {E : Type} [AddCommGroup E] [DecidableEq E]

/-! ### Outcomes -/

theorem sameOutcome_bind {α β α' β' : Type} {R : α → β → Prop} {S : α' → β' → Prop} {x : Except Err α}
    {y : Except Err β} {f : α → Except Err α'} {g : β → Except Err β'} (h : SameOutcome R x y)
    (hf : ∀ a b, R a b → SameOutcome S (f a) (g b)) : SameOutcome S (x >>= f) (y >>= g) := by
  cases x <;> cases y <;> simp only [SameOutcome] at h
  · subst h; rfl
  · exact hf _ _ h

theorem sameOutcome_refl {α : Type} (x : Except Err α) : SameOutcome (· = ·) x x := by
  cases x <;> simp [SameOutcome]

theorem sameOutcome_eq {α : Type} {x y : Except Err α} (h : SameOutcome (· = ·) x y) : x = y := by
  cases x <;> cases y <;> simp_all [SameOutcome]

theorem sameOutcome_of_eq {α : Type} {x y : Except Err α} (h : x = y) : SameOutcome (· = ·) x y := by
  subst h; exact sameOutcome_refl x

theorem sameOutcome_ok {α β : Type} {R : α → β → Prop} {x : Except Err α} {y : Except Err β}
    (h : SameOutcome R x y) : (∃ a b, x = .ok a ∧ y = .ok b ∧ R a b) ∨ ∃ e, x = .error e ∧ y = .error e := by
  cases x <;> cases y <;> simp_all [SameOutcome]

theorem forall₂_of_get {α β : Type} {Q : α → β → Prop} : ∀ {ts : List α} {us : List β}, ts.length = us.length →
    (∀ (i : Nat) t u, ts[i]? = some t → us[i]? = some u → Q t u) → List.Forall₂ Q ts us
  | [], [], _, _ => .nil
  | [], _ :: _, h, _ => by simp at h
  | _ :: _, [], h, _ => by simp at h
  | t :: ts, u :: us, h, hq => .cons (hq 0 t u rfl rfl)
      (forall₂_of_get (by simpa using h) fun i t u h1 h2 => hq (i + 1) t u h1 h2)

theorem get_of_forall₂ {α β : Type} {Q : α → β → Prop} {ts : List α} {us : List β} (h : List.Forall₂ Q ts us) :
    ts.length = us.length ∧ ∀ (i : Nat) t u, ts[i]? = some t → us[i]? = some u → Q t u := by
  refine ⟨h.length_eq, ?_⟩
  induction h with
  | nil => intro i t u h; simp at h
  | cons h _ ih =>
    intro i t u h1 h2
    cases i with
    | zero => simp only [List.getElem?_cons_zero, Option.some.injEq] at h1 h2; subst h1; subst h2; exact h
    | succ i => exact ih i t u h1 h2

/-! ### Dictionaries -/

theorem key_through (ρ : Sec → Sec) {f : String → String} (hf : Function.Injective f) (σ : Store) (x y : Sec) :
    σ.key (ρ x) = σ.key (ρ y) ↔ (seenThrough ρ f σ).key x = (seenThrough ρ f σ).key y := by
  simp only [Store.key, seenThrough, Prod.mk.injEq, hf.eq_iff]

/-- The identifiers, with other names. -/
def IdMap.renamed (f : String → String) (m : IdMap) : IdMap := m.map fun e => (f e.1, e.2)

theorem IdMap.lookup_renamed {f : String → String} (hf : Function.Injective f) (n : String) : ∀ m : IdMap,
    List.lookup (f n) (m.renamed f) = List.lookup n m
  | [] => rfl
  | (k, i) :: m => by
    have ih := IdMap.lookup_renamed hf n m
    simp only [IdMap.renamed, List.map_cons, List.lookup] at ih ⊢
    have : (f n == f k) = (n == k) := by
      by_cases h : n = k
      · subst h; simp
      · have h' : f n ≠ f k := fun e => h (hf e)
        simp [h, h']
    rw [this, ih]

theorem assignSecretIds_renamed {f : String → String} (hf : Function.Injective f) (ns : List String) :
    assignSecretIds (ns.map f) = IdMap.renamed f (assignSecretIds ns) := by
  have : ∀ (ns : List String) (m : IdMap) (c : Nat),
      assignIdsGo (ns.map f) (m.renamed f) c = IdMap.renamed f (assignIdsGo ns m c) := by
    intro ns
    induction ns with
    | nil => intro m c; rfl
    | cons n ns ih =>
      intro m c
      simp only [List.map_cons, assignIdsGo]
      rw [IdMap.lookup_renamed hf]
      cases List.lookup n m with
      | some i => exact ih m c
      | none =>
        have := ih (m ++ [(n, c)]) (c + 1)
        simp only [IdMap.renamed, List.map_append, List.map_cons, List.map_nil] at this ⊢
        exact this
  exact this ns [] 0

/-- The dictionary with other key objects. -/
def Dict.renamed {α : Type} (ρ : Sec → Sec) (d : Dict α) : Dict α := d.map fun e => (ρ e.1, e.2)

theorem Dict.get?_renamed {α : Type} (ρ : Sec → Sec) {f : String → String} (hf : Function.Injective f) (σ : Store) (s : Sec) : ∀ d : Dict α,
    Dict.get? σ (d.renamed ρ) (ρ s) = Dict.get? (seenThrough ρ f σ) d s
  | [] => rfl
  | (k, v) :: d => by
    have ih := Dict.get?_renamed ρ hf σ s d
    simp only [Dict.renamed, List.map_cons, Dict.get?] at ih ⊢
    rw [ih]
    simp only [key_through ρ hf σ]

theorem Dict.set_renamed {α : Type} (ρ : Sec → Sec) {f : String → String} (hf : Function.Injective f) (σ : Store) (s : Sec) (v : α) : ∀ d : Dict α,
    Dict.set σ (d.renamed ρ) (ρ s) v = (Dict.set (seenThrough ρ f σ) d s v).renamed ρ
  | [] => rfl
  | (k, w) :: d => by
    have ih := Dict.set_renamed ρ hf σ s v d
    simp only [Dict.renamed, List.map_cons, Dict.set] at ih ⊢
    rw [ih]
    have e := propext (key_through ρ hf σ k s)
    simp only [e]
    split <;> rfl

/-! ### Leaves -/

/-- The same verdict and dictionary, up to key objects. -/
def SameVerdict (ρ : Sec → Sec) (x y : Bool × Dict (Val E)) : Prop := x.1 = y.1 ∧ x.2 = y.2.renamed ρ

/-- What leaves have to do alike. -/
structure OwnLaws {L : Type} [StmtOps E L] (ρ : Sec → Sec) (f : String → String) (σ : Store) (R : L → L → Prop) : Prop where
  vars : ∀ a b, R a b → SameOutcome (fun x y => x = y.map ρ) (StmtOps.secretVars (E := E) a) (StmtOps.secretVars (E := E) b)
  pid : ∀ a b, R a b → ∀ m, StmtOps.proofId (E := E) σ m a = StmtOps.proofId (E := E) (seenThrough ρ f σ) (m.renamed f) b
  process : ∀ a b, R a b → ∀ v, SameOutcome R (StmtOps.process (E := E) σ a v)
    (StmtOps.process (E := E) (seenThrough ρ f σ) b v)
  validate : ∀ a b, R a b → StmtOps.fullValidate (E := E) a = StmtOps.fullValidate (E := E) b
  consistency : ∀ a b, R a b → ∀ (r : Val E) d, SameOutcome (SameVerdict ρ) (StmtOps.consistency σ a r (d.renamed ρ))
    (StmtOps.consistency (seenThrough ρ f σ) b r d)
  recompute : ∀ a b, R a b → ∀ c (r : Val E), StmtOps.recompute a c r = StmtOps.recompute b c r

section trees
variable {L : Type} [StmtOps E L] {ρ : Sec → Sec} {f : String → String} {σ : Store} {R : L → L → Prop} (hR : OwnLaws ρ f σ R)
include hR

theorem own_vars {t u : Tree L} (h : Alike R t u) :
    SameOutcome (fun x y => x = y.map ρ) (Tree.secretVars t) (Tree.secretVars u) := by
  have lists : ∀ {ts us : List (Tree L)}, List.Forall₂ (fun t u => SameOutcome (fun x y => x = y.map ρ)
      (Tree.secretVars t) (Tree.secretVars u)) ts us →
      SameOutcome (fun x y => x = y.map ρ) (Tree.secretVarsL ts) (Tree.secretVarsL us) := by
    intro ts us h
    induction h with
    | nil => simp [Tree.secretVarsL, SameOutcome]
    | cons h _ ih =>
      simp only [Tree.secretVarsL]
      refine sameOutcome_bind h fun a b e => sameOutcome_bind ih fun a' b' e' => ?_
      subst e; subst e'; simp [SameOutcome]
  induction h with
  | leaf a b h => exact hR.vars a b h
  | all b b' ts us hl _ ih => exact lists (forall₂_of_get hl ih)
  | any b b' ts us hl _ ih => exact lists (forall₂_of_get hl ih)

theorem own_pidWith (m : IdMap) {t u : Tree L} (h : Alike R t u) :
    SameOutcome (· = ·) (Tree.proofIdWith σ m t) (Tree.proofIdWith (seenThrough ρ f σ) (m.renamed f) u) := by
  have lists : ∀ {ts us : List (Tree L)}, List.Forall₂ (fun t u => SameOutcome (· = ·)
      (Tree.proofIdWith σ m t) (Tree.proofIdWith (seenThrough ρ f σ) (m.renamed f) u)) ts us →
      SameOutcome (· = ·) (Tree.proofIdWithL σ m ts) (Tree.proofIdWithL (seenThrough ρ f σ) (m.renamed f) us) := by
    intro ts us h
    induction h with
    | nil => simp [Tree.proofIdWithL, SameOutcome]
    | cons h _ ih =>
      simp only [Tree.proofIdWithL]
      refine sameOutcome_bind h fun a b e => sameOutcome_bind ih fun a' b' e' => ?_
      subst e; subst e'; simp [SameOutcome]
  induction h with
  | leaf a b h => exact sameOutcome_of_eq (hR.pid a b h m)
  | all b b' ts us hl _ ih =>
    simp only [Tree.proofIdWith]
    exact sameOutcome_bind (lists (forall₂_of_get hl ih)) fun a b e => by subst e; exact sameOutcome_refl _
  | any b b' ts us hl _ ih =>
    simp only [Tree.proofIdWith]
    exact sameOutcome_bind (lists (forall₂_of_get hl ih)) fun a b e => by subst e; exact sameOutcome_refl _

theorem own_pid (hf : Function.Injective f) {t u : Tree L} (h : Alike R t u) : Tree.proofId σ t = Tree.proofId (seenThrough ρ f σ) u := by
  refine sameOutcome_eq ?_
  unfold Tree.proofId
  refine sameOutcome_bind (own_vars hR h) fun a b e => ?_
  subst e
  have : b.map (seenThrough ρ f σ).name = ((b.map ρ).map σ.name).map f := by
    rw [List.map_map, List.map_map]; rfl
  rw [this, assignSecretIds_renamed hf]
  exact own_pidWith hR _ h

theorem own_process {t u : Tree L} (h : Alike R t u) : ∀ v,
    SameOutcome (Alike R) (Tree.process σ t v) (Tree.process (seenThrough ρ f σ) u v) := by
  have lists : ∀ {ts us : List (Tree L)}, List.Forall₂ (fun t u => ∀ v, SameOutcome (Alike R)
      (Tree.process σ t v) (Tree.process (seenThrough ρ f σ) u v)) ts us → ∀ i v,
      SameOutcome (List.Forall₂ (Alike R)) (Tree.processL σ ts i v) (Tree.processL (seenThrough ρ f σ) us i v) := by
    intro ts us h
    induction h with
    | nil => intro i v; simp [Tree.processL, SameOutcome]
    | cons h _ ih =>
      intro i v
      simp only [Tree.processL]
      refine sameOutcome_bind (sameOutcome_refl (v.index i)) fun x y e => ?_
      subst e
      refine sameOutcome_bind (h x) fun a b e => sameOutcome_bind (ih (i + 1) v) fun a' b' e' => ?_
      exact .cons e e'
  induction h with
  | leaf a b h =>
    intro v
    simp only [Tree.process]
    exact sameOutcome_bind (hR.process a b h v) fun a b e => .leaf a b e
  | all b b' ts us hl h ih =>
    intro v
    simp only [Tree.process]
    split
    · exact .all b b' ts us hl h
    · refine sameOutcome_bind (lists (forall₂_of_get hl ih) 0 v) fun a c e => ?_
      obtain ⟨e1, e2⟩ := get_of_forall₂ e
      exact .all b b' a c e1 e2
  | any b b' ts us hl h ih =>
    intro v
    simp only [Tree.process]
    split
    · exact .any b b' ts us hl h
    · refine sameOutcome_bind (lists (forall₂_of_get hl ih) 0 v) fun a c e => ?_
      obtain ⟨e1, e2⟩ := get_of_forall₂ e
      exact .any b b' a c e1 e2

theorem own_validate {t u : Tree L} (h : Alike R t u) : Tree.fullValidate t = Tree.fullValidate u := by
  have lists : ∀ {ts us : List (Tree L)}, List.Forall₂ (fun t u => Tree.fullValidate t = Tree.fullValidate u) ts us →
      Tree.fullValidateL ts = Tree.fullValidateL us := by
    intro ts us h
    induction h with
    | nil => rfl
    | cons h _ ih => simp only [Tree.fullValidateL, h, ih]
  induction h with
  | leaf a b h => exact hR.validate a b h
  | all b b' ts us hl _ ih => exact lists (forall₂_of_get hl ih)
  | any b b' ts us hl _ ih => exact lists (forall₂_of_get hl ih)

theorem own_consistency {t u : Tree L} (h : Alike R t u) : ∀ (r : Val E) d,
    SameOutcome (SameVerdict ρ) (Tree.consistency σ t r (d.renamed ρ)) (Tree.consistency (seenThrough ρ f σ) u r d) := by
  have ands : ∀ {ts us : List (Tree L)}, List.Forall₂ (fun t u => ∀ (r : Val E) d, SameOutcome (SameVerdict ρ)
      (Tree.consistency σ t r (d.renamed ρ)) (Tree.consistency (seenThrough ρ f σ) u r d)) ts us → ∀ i (r : Val E) d,
      SameOutcome (SameVerdict ρ) (Tree.consistencyAnd σ ts i r (d.renamed ρ))
        (Tree.consistencyAnd (seenThrough ρ f σ) us i r d) := by
    intro ts us h
    induction h with
    | nil => intro i r d; simp [Tree.consistencyAnd, SameOutcome, SameVerdict]
    | cons h _ ih =>
      intro i r d
      simp only [Tree.consistencyAnd]
      refine sameOutcome_bind (sameOutcome_refl (r.index i)) fun x y e => ?_
      subst e
      refine sameOutcome_bind (h x d) fun a b e => ?_
      obtain ⟨a1, a2⟩ := a
      obtain ⟨b1, b2⟩ := b
      obtain ⟨e1, e2⟩ := e
      simp only at e1 e2
      subst e1; subst e2
      simp only
      split
      · exact ih (i + 1) r b2
      · exact ⟨rfl, rfl⟩
  have ors : ∀ {ts us : List (Tree L)}, List.Forall₂ (fun t u => ∀ (r : Val E) d, SameOutcome (SameVerdict ρ)
      (Tree.consistency σ t r (d.renamed ρ)) (Tree.consistency (seenThrough ρ f σ) u r d)) ts us → ∀ i (r : Val E),
      SameOutcome (· = ·) (Tree.consistencyOr σ ts i r) (Tree.consistencyOr (seenThrough ρ f σ) us i r) := by
    intro ts us h
    induction h with
    | nil => intro i r; simp [Tree.consistencyOr, SameOutcome]
    | cons h _ ih =>
      intro i r
      simp only [Tree.consistencyOr]
      refine sameOutcome_bind (sameOutcome_refl (r.index 1)) fun x y e => ?_
      subst e
      refine sameOutcome_bind (sameOutcome_refl (x.index i)) fun x y e => ?_
      subst e
      refine sameOutcome_bind (h x []) fun a b e => ?_
      obtain ⟨a1, a2⟩ := a
      obtain ⟨b1, b2⟩ := b
      obtain ⟨e1, e2⟩ := e
      simp only at e1 e2
      subst e1; subst e2
      simp only
      split
      · exact ih (i + 1) r
      · rfl
  induction h with
  | leaf a b h => exact hR.consistency a b h
  | all b b' ts us hl _ ih =>
    intro r d
    simp only [Tree.consistency]
    exact ands (forall₂_of_get hl ih) 0 r d
  | any b b' ts us hl _ ih =>
    intro r d
    simp only [Tree.consistency]
    exact sameOutcome_bind (ors (forall₂_of_get hl ih) 0 r) fun x y e => ⟨e, rfl⟩

theorem own_recompute {t u : Tree L} (h : Alike R t u) : ∀ c (r : Val E), Tree.recompute t c r = Tree.recompute u c r := by
  have ands : ∀ {ts us : List (Tree L)}, List.Forall₂ (fun t u => ∀ c (r : Val E),
      Tree.recompute t c r = Tree.recompute u c r) ts us → ∀ i c (r : Val E),
      Tree.recomputeAnd ts i c r = Tree.recomputeAnd us i c r := by
    intro ts us h
    induction h with
    | nil => intro i c r; rfl
    | cons h _ ih => intro i c r; simp only [Tree.recomputeAnd, h, ih]
  have ors : ∀ {ts us : List (Tree L)}, List.Forall₂ (fun t u => ∀ c (r : Val E),
      Tree.recompute t c r = Tree.recompute u c r) ts us → ∀ i cs (r : Val E),
      Tree.recomputeOr ts i cs r = Tree.recomputeOr us i cs r := by
    intro ts us h
    induction h with
    | nil => intro i c r; rfl
    | cons h _ ih => intro i c r; simp only [Tree.recomputeOr, h, ih]
  induction h with
  | leaf a b h => exact hR.recompute a b h
  | all b b' ts us hl _ ih => intro c r; simp only [Tree.recompute, ands (forall₂_of_get hl ih)]
  | any b b' ts us hl _ ih => intro c r; simp only [Tree.recompute, ors (forall₂_of_get hl ih)]

/-! ### Verification -/

theorem own_pre {t u : Tree L} (h : Alike R t u) (r : Val E) :
    preVerification σ t r = preVerification (seenThrough ρ f σ) u r := by
  refine sameOutcome_eq ?_
  unfold preVerification
  refine sameOutcome_bind (sameOutcome_of_eq (own_validate hR h)) fun _ _ _ => ?_
  refine sameOutcome_bind (own_consistency hR h r []) fun a b e => ?_
  obtain ⟨a1, a2⟩ := a
  obtain ⟨b1, b2⟩ := b
  obtain ⟨e1, e2⟩ := e
  simp only at e1
  subst e1
  exact sameOutcome_refl _

theorem own_check (hf : Function.Injective f) (env : Env E) {t u : Tree L} (h : Alike R t u) (x : List UInt8) :
    checkStatement env σ t x = checkStatement env (seenThrough ρ f σ) u x := by
  unfold checkStatement
  rw [own_pid hR hf h]

theorem own_response {t u : Tree L} (h : Alike R t u) (com : Val E) (c : Int) (r : Val E) :
    verifyResponse σ t com c r = verifyResponse (seenThrough ρ f σ) u com c r := by
  unfold verifyResponse
  rw [own_pre hR h, own_recompute hR h]

theorem own_verify (hf : Function.Injective f) (env : Env E) {t u : Tree L} (h : Alike R (Tree.freshVerifier t) (Tree.freshVerifier u))
    (nizk : NIZK E) (msg : String) : verify env σ t nizk msg = verify env (seenThrough ρ f σ) u nizk msg := by
  refine sameOutcome_eq ?_
  unfold verify
  have h1 : SameOutcome (Alike R) (digestPrecommitment σ (Tree.freshVerifier t) nizk.precommitment)
      (digestPrecommitment (seenThrough ρ f σ) (Tree.freshVerifier u) nizk.precommitment) := by
    unfold digestPrecommitment
    split
    · exact h
    · exact own_process hR h _
  refine sameOutcome_bind h1 fun a b e => ?_
  rw [own_check hR hf env e, own_pre hR e, own_recompute hR e]
  exact sameOutcome_refl _

theorem own_simulation (hf : Function.Injective f) (env : Env E) {t u : Tree L} (h : Alike R (Tree.freshVerifier t) (Tree.freshVerifier u))
    (tr : Sim E) (x : List UInt8) :
    verifySimulationConsistency env σ t tr x = verifySimulationConsistency env (seenThrough ρ f σ) u tr x := by
  refine sameOutcome_eq ?_
  unfold verifySimulationConsistency
  refine sameOutcome_bind (own_process hR h _) fun a b e => ?_
  rw [own_check hR hf env e, own_response hR e]
  exact sameOutcome_refl _

theorem own_sigma (hf : Function.Injective f) {P : Type} [ProverOps E L P] [ChallengeOps L]
    (hgate : ∀ a b, R a b → ChallengeOps.gate a = ChallengeOps.gate b) (env : Env E) {t u : Tree L}
    (h : Alike R (Tree.freshVerifier t) (Tree.freshVerifier u)) (p : PTree E L P) :
    sigmaProtocol env σ t p = sigmaProtocol env (seenThrough ρ f σ) u p := by
  unfold sigmaProtocol
  refine congrArg (PTree.precommit p >>= ·) (funext fun v => ?_)
  obtain ⟨v, p1⟩ := v
  simp only
  rcases sameOutcome_ok (own_process hR h v) with ⟨a, b, h1, h2, e⟩ | ⟨e, h1, h2⟩
  · rw [h1, h2]
    have hc : ∀ x, sendChallenge env σ a x = sendChallenge env (seenThrough ρ f σ) b x := by
      intro x
      unfold sendChallenge
      rw [own_check hR hf env e]
      have : Tree.gate a = Tree.gate b := by
        cases e with
        | leaf a b h => exact hgate a b h
        | all => rfl
        | any => rfl
      rw [this]
    have hl : ∀ {α β : Type} (x : α) (f : α → PM β), (liftE (.ok x) >>= f) = f x := fun x f => rfl
    rw [hl, hl]
    refine congrArg (PTree.commit env p1 >>= ·) (funext fun y => ?_)
    obtain ⟨⟨hh, com⟩, p2⟩ := y
    simp only
    rw [hc]
    simp only [own_response hR e]
  · rw [h1, h2]; rfl

end trees

/-! ### Representations -/

theorem own_rep (ρ : Sec → Sec) {f : String → String} (hf : Function.Injective f) (σ : Store) : OwnLaws ρ f σ (RepOwn (E := E) ρ) where
  vars := by
    rintro a b ⟨_, _, h⟩
    exact h
  pid := by
    rintro a b ⟨h1, h2, h3⟩ m
    show DLRep.proofId σ m a = DLRep.proofId _ _ b
    unfold DLRep.proofId
    rw [h1, h2, h3]
    have : ∀ l : List Sec, DLRep.idsOf σ m (l.map ρ) = DLRep.idsOf (seenThrough ρ f σ) (m.renamed f) l := by
      intro l
      induction l with
      | nil => rfl
      | cons x l ih =>
        have hn : (seenThrough ρ f σ).name x = f (σ.name (ρ x)) := rfl
        simp only [List.map_cons, DLRep.idsOf, ih, hn, IdMap.get, IdMap.lookup_renamed hf]
    rw [this]
  process := by
    intro a b h v
    exact h
  validate := by
    intro a b h; rfl
  consistency := by
    rintro a b ⟨_, _, h⟩ r d
    show SameOutcome _ (DLRep.consistencyGo σ r a.secretVars 0 _) (DLRep.consistencyGo _ r b.secretVars 0 d)
    rw [h]
    have : ∀ (l : List Sec) i (d : Dict (Val E)), SameOutcome (SameVerdict ρ)
        (DLRep.consistencyGo σ r (l.map ρ) i (d.renamed ρ)) (DLRep.consistencyGo (seenThrough ρ f σ) r l i d) := by
      intro l
      induction l with
      | nil => intro i d; exact ⟨rfl, rfl⟩
      | cons x l ih =>
        intro i d
        simp only [List.map_cons, DLRep.consistencyGo]
        rw [Dict.get?_renamed ρ hf]
        cases Dict.get? (seenThrough ρ f σ) d x with
        | some v =>
          simp only
          refine sameOutcome_bind (sameOutcome_refl _) fun y z e => ?_
          subst e
          split
          · exact ⟨rfl, rfl⟩
          · exact ih (i + 1) d
        | none =>
          simp only
          refine sameOutcome_bind (sameOutcome_refl _) fun y z e => ?_
          subst e
          rw [Dict.set_renamed ρ hf]
          exact ih (i + 1) _
    exact this _ _ _
  recompute := by
    rintro a b ⟨h1, h2, _⟩ c r
    show DLRep.recompute a c r = DLRep.recompute b c r
    unfold DLRep.recompute
    rw [h1, h2]

theorem fresh_core' (t : Core E) : Tree.freshVerifier t = t := fresh_core t

/-! ### Statements -/

/-- `LeafOwn` for objects with verifiers attached. -/
def LeafOwnV (ρ : Sec → Sec) (f : String → String) (σ : Store) : Leaf E → Leaf E → Prop
  | .ext a, .ext b => LeafOwn ρ f σ (.ext a) (.ext b) ∧ SameOption (Alike (RepOwn ρ)) a.verifier b.verifier
  | a, b => LeafOwn ρ f σ a b

theorem own_leaf (ρ : Sec → Sec) {f : String → String} (hf : Function.Injective f) (σ : Store) : OwnLaws ρ f σ (LeafOwnV (E := E) ρ f σ) where
  vars := by
    intro a b h
    cases a <;> cases b <;> simp only [LeafOwnV, LeafOwn] at h
    · exact (own_rep ρ hf σ).vars _ _ h
    · rename_i a b
      obtain ⟨⟨_, _, _, _, h⟩, _⟩ := h
      show SameOutcome _ (do (← a.inner).secretVars) (do (← b.inner).secretVars)
      unfold Ext.inner
      cases ha : a.constructed <;> cases hb : b.constructed <;> simp only [ha, hb, SameOption] at h
      · rfl
      · exact own_vars (own_rep ρ hf σ) h
  pid := by
    intro a b h m
    cases a <;> cases b <;> simp only [LeafOwnV, LeafOwn] at h
    · exact (own_rep ρ hf σ).pid _ _ h m
    · rename_i a b
      obtain ⟨⟨h1, _, _, h2, h⟩, _⟩ := h
      show Ext.proofId σ m a = Ext.proofId _ _ b
      unfold Ext.proofId
      cases ha : a.constructed <;> cases hb : b.constructed <;> simp only [ha, hb, SameOption] at h
      · rfl
      · simp only [h1, h2, sameOutcome_eq (own_pidWith (own_rep ρ hf σ) m h)]
  process := by
    intro a b h v
    cases a <;> cases b <;> simp only [LeafOwnV, LeafOwn] at h
    · exact h
    · rename_i a b
      obtain ⟨⟨h1, h2, h3, _, _⟩, _⟩ := h
      show SameOutcome _ ((Ext.process σ a v).map Leaf.ext) ((Ext.process _ b v).map Leaf.ext)
      unfold Ext.process Ext.fullConstruct
      rcases sameOutcome_ok (h3 v) with ⟨k, l, g1, g2, e⟩ | ⟨e, g1, g2⟩
      · rw [g1, g2]
        refine ⟨⟨h1, h2, h3, rfl, e⟩, ?_⟩
        simp only [Option.map_some, fresh_core]
        exact e
      · rw [g1, g2]; rfl
  validate := by
    intro a b h
    cases a <;> cases b <;> simp only [LeafOwnV, LeafOwn] at h
    · rfl
    · rename_i a b
      obtain ⟨⟨_, h2, _, h4, _⟩, _⟩ := h
      show a.spec.validate a.precommitment = b.spec.validate b.precommitment
      rw [h2, h4]
  consistency := by
    intro a b h r d
    cases a <;> cases b <;> simp only [LeafOwnV, LeafOwn] at h
    · exact (own_rep ρ hf σ).consistency _ _ h r d
    · rename_i a b
      obtain ⟨_, h⟩ := h
      show SameOutcome _ (Ext.consistency σ a r _) (Ext.consistency _ b r d)
      unfold Ext.consistency
      cases ha : a.verifier <;> cases hb : b.verifier <;> simp only [ha, hb, SameOption] at h
      · rfl
      · exact own_consistency (own_rep ρ hf σ) h r d
  recompute := by
    intro a b h c r
    cases a <;> cases b <;> simp only [LeafOwnV, LeafOwn] at h
    · exact (own_rep ρ hf σ).recompute _ _ h c r
    · rename_i a b
      obtain ⟨⟨_, _, _, _, h⟩, _⟩ := h
      show (do (← a.inner).recompute c r) = (do (← b.inner).recompute c r)
      unfold Ext.inner
      cases ha : a.constructed <;> cases hb : b.constructed <;> simp only [ha, hb, SameOption] at h
      · rfl
      · simp only [bind_ok]
        exact own_recompute (own_rep ρ hf σ) h c r

theorem alike_flags {R : DLRep E → DLRep E → Prop} : ∀ {t u : Core E}, Alike R t u → Tree.ignoresHash t = Tree.ignoresHash u := by
  intro t u h
  cases h <;> rfl

theorem own_gate (ρ : Sec → Sec) (f : String → String) (σ : Store) (a b : Leaf E) (h : LeafOwnV ρ f σ a b) :
    ChallengeOps.gate a = ChallengeOps.gate b := by
  cases a <;> cases b <;> simp only [LeafOwnV, LeafOwn] at h
  · rfl
  · rename_i a b
    obtain ⟨_, h⟩ := h
    show (match a.verifier with
      | none => .error .attributeError
      | some v => if Tree.ignoresHash v then .ok () else .error .typeError) = (match b.verifier with
      | none => (.error .attributeError : Except Err Unit)
      | some v => if Tree.ignoresHash v then .ok () else .error .typeError)
    cases ha : a.verifier <;> cases hb : b.verifier <;> simp only [ha, hb, SameOption] at h
    · rfl
    · simp only
      rw [alike_flags h]

theorem own_fresh {ρ : Sec → Sec} {f : String → String} {σ : Store} {t u : Stmt E} (h : Alike (LeafOwn ρ f σ) t u) :
    Alike (LeafOwnV ρ f σ) (Tree.freshVerifier t) (Tree.freshVerifier u) := by
  have lists : ∀ {ts us : List (Stmt E)}, List.Forall₂ (fun t u =>
      Alike (LeafOwnV ρ f σ) (Tree.freshVerifier t) (Tree.freshVerifier u)) ts us →
      List.Forall₂ (Alike (LeafOwnV ρ f σ)) (Tree.freshVerifierL ts) (Tree.freshVerifierL us) := by
    intro ts us h
    induction h with
    | nil => exact .nil
    | cons h _ ih => exact .cons h ih
  induction h with
  | leaf a b h =>
    simp only [Tree.freshVerifier]
    refine .leaf _ _ ?_
    cases a <;> cases b <;> simp only [LeafOwn] at h
    · exact h
    · exact ⟨h, trivial⟩
  | all b b' ts us hl _ ih =>
    obtain ⟨e1, e2⟩ := get_of_forall₂ (lists (forall₂_of_get hl ih))
    exact .all _ _ _ _ e1 e2
  | any b b' ts us hl _ ih =>
    obtain ⟨e1, e2⟩ := get_of_forall₂ (lists (forall₂_of_get hl ih))
    exact .any _ _ _ _ e1 e2

end Zksk
