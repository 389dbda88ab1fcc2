import Verif.Lemmas.ChanceDraw
import Verif.SpecCodec

/-! How often a prover has a given commitment. -/

set_option linter.unusedSectionVars false

namespace Zksk.Chance

open Spec Peer

variable {E : Type} [AddCommGroup E] [DecidableEq E]

/-- The heap does not change. -/
abbrev Same (σ : Store) {A : Type} : A → Store → Prop := fun _ τ => τ = σ

theorem drawDict_steps (σ : Store) : ∀ D : Dict Nat, Steps (Same σ) (starting σ (Tree.drawDict D))
  | [] => .pure rfl
  | (u, o) :: D => by
    unfold Tree.drawDict
    refine Steps.bind (Q := Same σ) (.draw o fun _ _ => rfl) fun k τ hτ => ?_
    subst hτ
    exact Steps.bind (drawDict_steps τ D) fun ks τ' hτ => .pure hτ

theorem updateWith_steps {σ : Store} {vars : Except Err (List Sec)} {g : PM (Dict Int)}
    (hg : Steps (Same σ) (starting σ g)) (d : Option (Dict Int)) :
    Steps (Same σ) (starting σ (Tree.updateRandomizersWith vars g d)) := by
  cases d with
  | none => exact hg
  | some d =>
    unfold Tree.updateRandomizersWith
    refine .get (.lift fun vs _ => ?_)
    split
    · exact hg.bind fun _ τ hτ => .pure hτ
    · exact .pure rfl

theorem dlrep_random (σ : Store) (s : DLRep E) : Steps (Same σ) (starting σ s.getRandomizers) := by
  unfold DLRep.getRandomizers
  cases s.bases with
  | nil => exact .raise
  | cons b bs =>
    refine .get ?_
    rw [drawAll_eq]
    exact drawDict_steps σ _

theorem dlrep_commit_steps (σ : Store) (p : DLRepProver E) (o : Option (Dict Int)) :
    Steps (Same σ) (starting σ (p.internalCommit o)) := by
  unfold DLRepProver.internalCommit
  refine (updateWith_steps (dlrep_random σ p.stmt) o).bind fun d' τ hτ => ?_
  subst hτ
  exact .get (.lift fun _ _ => .lift fun _ _ => .pure rfl)

section generic

variable {L P : Type} [StmtOps E L] [ProverOps E L P]

theorem update_steps (σ : Store) (t : Tree L) (d : Option (Dict Int)) :
    Steps (Same σ) (starting σ (Tree.updateRandomizers t d)) :=
  updateWith_steps (.get (.lift fun _ _ => .lift fun _ _ => drawDict_steps σ _)) d

theorem loop_steps (ps : List (PTree E L P)) (h : ∀ p ∈ ps, ∀ o σ, Steps (Same σ) (starting σ (PTree.internalCommit p o)))
    (D : Dict Int) (σ : Store) : Steps (Same σ) (starting σ (PTree.internalCommitL ps D)) := by
  induction ps with
  | nil => simp only [PTree.internalCommitL]; exact .pure rfl
  | cons p ps ihp =>
    simp only [PTree.internalCommitL]
    refine (h p (by simp) _ σ).bind fun a τ hτ => ?_
    subst hτ
    exact (ihp (fun p hp => h p (by simp [hp]))).bind fun _ τ hτ => .pure hτ

theorem commit_steps (hl : ∀ (p : P) o σ, Steps (Same σ) (starting σ (ProverOps.internalCommit p o))) (p : PTree E L P) :
    ∀ o σ, Steps (Same σ) (starting σ (PTree.internalCommit p o)) := by
  induction p using PTree.ind with
  | leaf p =>
    intro o σ
    simp only [PTree.internalCommit]
    exact (hl p o σ).bind fun _ τ hτ => .pure hτ
  | and s subs ih =>
    intro o σ
    simp only [PTree.internalCommit]
    refine .get (.lift fun _ _ => (update_steps σ _ o).bind fun D τ hτ => ?_)
    subst hτ
    exact (loop_steps subs ih D _).bind fun _ τ hτ => .pure hτ
  | or s i stmts sub sims ih =>
    intro o σ
    simp only [PTree.internalCommit]
    refine .get (.lift fun _ _ => (ih none σ).bind fun a τ hτ => ?_)
    subst hτ
    exact .lift fun _ _ => .pure rfl

theorem commitL_steps (hl : ∀ (p : P) o σ, Steps (Same σ) (starting σ (ProverOps.internalCommit p o)))
    (ps : List (PTree E L P)) (D : Dict Int) (σ : Store) : Steps (Same σ) (starting σ (PTree.internalCommitL ps D)) :=
  loop_steps ps (fun p _ => commit_steps hl p) D σ

theorem stmts_map (ps : List (PTree E L P)) : PTree.stmtOfL ps = ps.map PTree.stmtOf := by
  induction ps with
  | nil => rfl
  | cons p ps ih => simp [PTree.stmtOfL, ih]

/-! ### Where the commitment of a representation is found -/

/-- As many secrets as bases, and all groups have orders that fit. -/
def Regular (q M : Nat) (t : Tree L) : Prop :=
  ∀ vs bs, Tree.secretVars t = .ok vs → Tree.bases t = .ok bs →
    vs.length = bs.length ∧ ∀ b ∈ bs, q ∣ b.grp.order ∧ b.grp.order ∣ M

theorem regularL {q M : Nat} : ∀ {ts : List (Tree L)}, (∀ t ∈ ts, Regular q M t) → ∀ vs bs,
    Tree.secretVarsL ts = .ok vs → Tree.basesL ts = .ok bs →
    vs.length = bs.length ∧ ∀ b ∈ bs, q ∣ b.grp.order ∧ b.grp.order ∣ M
  | [], _, vs, bs, h1, h2 => by
    simp only [Tree.secretVarsL, Tree.basesL, Except.ok.injEq] at h1 h2
    subst h1; subst h2; simp
  | t :: ts, h, vs, bs, h1, h2 => by
    simp only [Tree.secretVarsL, Tree.basesL] at h1 h2
    obtain ⟨v1, a1, h1⟩ := bind_ok_iff.mp h1
    obtain ⟨v2, a2, h1⟩ := bind_ok_iff.mp h1
    obtain ⟨b1, a3, h2⟩ := bind_ok_iff.mp h2
    obtain ⟨b2, a4, h2⟩ := bind_ok_iff.mp h2
    simp only [Except.ok.injEq] at h1 h2
    subst h1; subst h2
    obtain ⟨e1, e2⟩ := h t (by simp) _ _ a1 a3
    obtain ⟨e3, e4⟩ := regularL (fun t ht => h t (by simp [ht])) _ _ a2 a4
    refine ⟨by simp [e1, e3], fun b hb => ?_⟩
    rcases List.mem_append.mp hb with hb | hb
    · exact e2 b hb
    · exact e4 b hb

theorem regular_and {q M : Nat} {b : Bool} {ts : List (Tree L)} (h : ∀ t ∈ ts, Regular q M t) : Regular q M (.and b ts) := by
  intro vs bs h1 h2
  simp only [Tree.secretVars, Tree.bases] at h1 h2
  exact regularL h vs bs h1 h2

theorem regular_or {q M : Nat} {b : Bool} {ts : List (Tree L)} (h : ∀ t ∈ ts, Regular q M t) : Regular q M (.or b ts) := by
  intro vs bs h1 h2
  simp only [Tree.secretVars, Tree.bases] at h1 h2
  exact regularL h vs bs h1 h2

/-- All statements in a prover are regular. -/
inductive Reg (q M : Nat) : PTree E L P → Prop
  | leaf (p : P) (h : Regular q M (.leaf (ProverOps.stmtOf p) : Tree L)) : Reg q M (.leaf p)
  | and (b : Bool) (subs : List (PTree E L P)) (h : ∀ p ∈ subs, Reg q M p) : Reg q M (.and b subs)
  | or (b : Bool) (i : Nat) (stmts : List (Tree L)) (sub : PTree E L P) (sims : List (Sim E))
      (hs : ∀ t ∈ stmts, Regular q M t) (h : Reg q M sub) : Reg q M (.or b i stmts sub sims)

theorem reg_stmt {q M : Nat} {p : PTree E L P} (h : Reg q M p) : Regular q M (PTree.stmtOf p) := by
  induction h with
  | leaf p h => exact h
  | and b subs _ ih =>
    rw [PTree.stmtOf, stmts_map]
    refine regular_and fun t ht => ?_
    obtain ⟨p, hp, rfl⟩ := List.mem_map.mp ht
    exact ih p hp
  | or b i stmts sub sims hs _ ih =>
    rw [PTree.stmtOf]
    refine regular_or fun t ht => ?_
    rcases List.mem_or_eq_of_mem_set ht with ht | rfl
    · exact hs t ht
    · exact ih

/-- The representation is proved as a part of a conjunction, by itself or at any depth, but not below a disjunction. -/
inductive Dir (dl : P → DLRep E → Prop) (s : DLRep E) : PTree E L P → Prop
  | leaf (p : P) (h : dl p s) : Dir dl s (.leaf p)
  | and (b : Bool) (subs : List (PTree E L P)) (p : PTree E L P) (hp : p ∈ subs) (h : Dir dl s p) : Dir dl s (.and b subs)

/-- Somewhere below a disjunction there is a representation whose commitment is not determined. -/
inductive Opn (q : Nat) (name : Sec → String) (dl : P → DLRep E → Prop) (op : P → Prop) : PTree E L P → Prop
  | leaf (p : P) (h : op p) : Opn q name dl op (.leaf p)
  | and (b : Bool) (subs : List (PTree E L P)) (p : PTree E L P) (hp : p ∈ subs) (h : Opn q name dl op p) :
      Opn q name dl op (.and b subs)
  | orDir (b : Bool) (i : Nat) (stmts : List (Tree L)) (sub : PTree E L P) (sims : List (Sim E)) (s : DLRep E) (x : Sec)
      (g : Pt E) (hi : i < stmts.length) (h : Dir dl s sub) (hf : Free q name s x g) :
      Opn q name dl op (.or b i stmts sub sims)
  | orOpn (b : Bool) (i : Nat) (stmts : List (Tree L)) (sub : PTree E L P) (sims : List (Sim E))
      (hi : i < stmts.length) (h : Opn q name dl op sub) : Opn q name dl op (.or b i stmts sub sims)

/-- The dictionary has all secrets of the representation. -/
def Covers (σ : Store) (D : Dict Int) (s : DLRep E) : Prop :=
  D.Uniq σ ∧ ∀ x ∈ s.secretVars, (Dict.get? σ D x).isSome

/-- The commitment shows the point. -/
def Shows (f : Option (Dict Int) → PM (Val E × P)) (s : DLRep E) (φ : Val E → Option E) : Prop :=
  ∀ D w com p' w', f (some D) w = .ok ((com, p'), w') → Covers w.store D s → φ (content com) = some (lin w.store D s)

/-- What is needed of leaves. -/
structure Kit (q M : Nat) (dl : P → DLRep E → Prop) (op : P → Prop) (name : Sec → String) : Prop where
  pos : M ≠ 0
  pos' : 0 < q
  steps : ∀ (p : P) o σ, Steps (Same σ) (starting σ (ProverOps.internalCommit p o))
  shows' : ∀ p s, dl p s → ∃ φ, Shows (ProverOps.internalCommit p) s φ
  vars : ∀ p s vs, dl p s → StmtOps.secretVars (ProverOps.stmtOf p) = .ok vs → ∀ x ∈ s.secretVars, x ∈ vs
  alone : ∀ p s x b σ v, dl p s → Free q name s x b → σ.name = name →
    Seldom M q (fun a => content a.1 = v) (starting σ (ProverOps.internalCommit p none))
  opened : ∀ p o σ v, op p → σ.name = name →
    Seldom M q (fun a => content a.1 = v) (starting σ (ProverOps.internalCommit p o))

theorem lin_congr {σ : Store} {D D' : Dict Int} {s : DLRep E}
    (h : ∀ x ∈ s.secretVars, Dict.fn σ 0 D' (σ.key x) = Dict.fn σ 0 D (σ.key x)) : lin σ D' s = lin σ D s := by
  unfold lin
  congr 1
  refine List.map_congr_left fun e he => ?_
  rw [h e.1 (List.of_mem_zip he).1]

theorem uniq_update {σ : Store} {d e : Dict Int} (h : d.Uniq σ) : (Dict.update σ d e).Uniq σ := by
  unfold Dict.update
  induction e generalizing d with
  | nil => exact h
  | cons kv e ih => exact ih (h.set kv.1 kv.2)

/-- Completing a dictionary keeps what is in it. -/
theorem update_covers {σ : Store} {vars : Except Err (List Sec)} {g : PM (Dict Int)}
    (hg : ∀ r D w, g ⟨σ, r⟩ = .ok (D, w) → w.store = σ ∧ D.Uniq σ) {D D' : Dict Int} {s : DLRep E} (hc : Covers σ D s)
    {w w' : World} (hw : w.store = σ) (h : Tree.updateRandomizersWith vars g (some D) w = .ok (D', w')) :
    w'.store = σ ∧ Covers σ D' s ∧ lin σ D' s = lin σ D s := by
  obtain ⟨σ', r⟩ := w
  simp only at hw
  subst hw
  simp only [Tree.updateRandomizersWith] at h
  rw [pm_getStore_bind] at h
  obtain ⟨vs, _, h⟩ := pm_liftE_bind_iff.mp h
  split at h
  · obtain ⟨tmp, w1, h1, h⟩ := pm_bind.mp h
    rw [pm_pure_iff, Prod.mk.injEq] at h
    obtain ⟨rfl, rfl⟩ := h
    obtain ⟨e1, e2⟩ := hg _ _ _ h1
    have hget : ∀ x ∈ s.secretVars, Dict.get? σ' (Dict.update σ' tmp D) x = Dict.get? σ' D x := by
      intro x hx
      obtain ⟨v, hv⟩ := Option.isSome_iff_exists.mp (hc.2 x hx)
      rw [Dict.get?_update_uniq hc.1 tmp x v hv, hv]
    refine ⟨e1, ⟨uniq_update e2, fun x hx => by rw [hget x hx]; exact hc.2 x hx⟩, lin_congr fun x hx => ?_⟩
    obtain ⟨v, hv⟩ := Option.isSome_iff_exists.mp (hc.2 x hx)
    rw [← Dict.get?_fn hv, ← Dict.get?_fn ((hget x hx).trans hv)]
  · rw [pm_pure_iff, Prod.mk.injEq] at h
    obtain ⟨rfl, rfl⟩ := h
    exact ⟨rfl, hc, rfl⟩

theorem random_uniq {σ : Store} {t : Tree L} {r : Nat → Nat} {D : Dict Int} {w : World}
    (h : Tree.getRandomizers t ⟨σ, r⟩ = .ok (D, w)) : w.store = σ ∧ D.Uniq σ := by
  unfold Tree.getRandomizers at h
  rw [pm_getStore_bind] at h
  obtain ⟨vs, _, h⟩ := pm_liftE_bind_iff.mp h
  obtain ⟨bs, _, h⟩ := pm_liftE_bind_iff.mp h
  obtain ⟨e1, e2⟩ := Tree.drawDict_ok _ _ _ _ h
  exact ⟨e1, Dict.Uniq.keys e2.symm (Tree.orderDict_go σ (vs.zip bs) [] trivial).1⟩

/-- The entry of a list of commitments. -/
def entry (i : Nat) (φ : Val E → Option E) : Val E → Option E
  | .list l => (l[i]?).bind φ
  | _ => none

theorem contentL_get : ∀ (l : List (Val E)) (i : Nat), (contentL l)[i]? = l[i]?.map content
  | [], _ => by simp [contentL]
  | v :: l, 0 => by simp [contentL]
  | v :: l, i + 1 => by simp only [contentL, List.getElem?_cons_succ]; exact contentL_get l i

theorem entry_list {φ : Val E → Option E} {l : List (Val E)} {i : Nat} {v : Val E} (h : l[i]? = some v) :
    entry i φ (content (.list l)) = φ (content v) := by
  simp [entry, content, contentL_get, h]

variable {q M : Nat} {dl : P → DLRep E → Prop} {op : P → Prop} {name : Sec → String}

theorem commitL_at (kit : Kit (E := E) (L := L) q M dl op name) : ∀ (ps : List (PTree E L P)) (D : Dict Int) (w w' : World)
    (vs : List (Val E)) (ps' : List (PTree E L P)), PTree.internalCommitL ps D w = .ok ((vs, ps'), w') →
    ∀ (i : Nat) p, ps[i]? = some p → ∃ v p' w1 w2, w1.store = w.store ∧
      PTree.internalCommit p (some D) w1 = .ok ((v, p'), w2) ∧ vs[i]? = some v
  | [], _, _, _, _, _, _, i, p, hp => by simp at hp
  | p0 :: ps, D, w, w', vs, ps', h, i, p, hp => by
    simp only [PTree.internalCommitL] at h
    obtain ⟨⟨v, p0'⟩, w1, h1, h⟩ := pm_bind.mp h
    obtain ⟨⟨vs1, ps1⟩, w2, h2, h⟩ := pm_bind.mp h
    rw [pm_pure_iff] at h
    simp only [Prod.mk.injEq] at h
    obtain ⟨⟨rfl, rfl⟩, rfl⟩ := h
    cases i with
    | zero =>
      simp only [List.getElem?_cons_zero, Option.some.injEq] at hp
      subst hp
      exact ⟨v, p0', w, w1, rfl, h1, by simp⟩
    | succ i =>
      obtain ⟨v', p', w3, w4, e1, e2, e3⟩ := commitL_at kit ps D w1 _ vs1 ps1 h2 i p (by simpa using hp)
      have : w1.store = w.store := (commit_steps kit.steps p0 (some D) w.store).result (r := w.rng) h1
      exact ⟨v', p', w3, w4, e1.trans this, e2, by simpa using e3⟩

/-- The commitment of the prover shows the one of the representation. -/
theorem dir_shows (kit : Kit (E := E) (L := L) q M dl op name) {s : DLRep E} {p : PTree E L P} (h : Dir dl s p) :
    ∃ φ, Shows (PTree.internalCommit p) s φ := by
  induction h with
  | leaf p h =>
    obtain ⟨φ, hφ⟩ := kit.shows' p s h
    refine ⟨φ, fun D w com p' w' h hc => ?_⟩
    simp only [PTree.internalCommit] at h
    obtain ⟨⟨v, p1⟩, w1, h1, h⟩ := pm_bind.mp h
    rw [pm_pure_iff] at h
    simp only [Prod.mk.injEq] at h
    obtain ⟨⟨rfl, rfl⟩, rfl⟩ := h
    exact hφ D w v p1 _ h1 hc
  | and b subs p hp _ ih =>
    obtain ⟨φ, hφ⟩ := ih
    obtain ⟨i, hi⟩ := List.mem_iff_getElem?.mp hp
    refine ⟨entry i φ, fun D w com p' w' h hc => ?_⟩
    simp only [PTree.internalCommit] at h
    rw [pm_getStore_bind] at h
    obtain ⟨_, _, h⟩ := pm_liftE_bind_iff.mp h
    obtain ⟨D', w1, h1, h⟩ := pm_bind.mp h
    obtain ⟨⟨vs, subs'⟩, w2, h2, h⟩ := pm_bind.mp h
    rw [pm_pure_iff] at h
    simp only [Prod.mk.injEq] at h
    obtain ⟨⟨rfl, rfl⟩, rfl⟩ := h
    obtain ⟨e1, e2, e3⟩ := update_covers (fun r D w h => random_uniq h) hc rfl h1
    obtain ⟨v, p1, w3, w4, g1, g2, g3⟩ := commitL_at kit subs D' w1 _ vs subs' h2 i p hi
    rw [entry_list g3, hφ D' w3 v p1 w4 g2 (by rw [g1, e1]; exact e2), g1, e1, e3]

theorem dir_vars (kit : Kit (E := E) (L := L) q M dl op name) {s : DLRep E} {p : PTree E L P} (h : Dir dl s p) :
    ∀ vs, Tree.secretVars (PTree.stmtOf p) = .ok vs → ∀ x ∈ s.secretVars, x ∈ vs := by
  induction h with
  | leaf p h => intro vs hv; exact kit.vars p s vs h hv
  | and b subs p hp _ ih =>
    intro vs hv
    rw [PTree.stmtOf, stmts_map] at hv
    simp only [Tree.secretVars] at hv
    have : ∀ (ps : List (PTree E L P)) vs, p ∈ ps → Tree.secretVarsL (ps.map PTree.stmtOf) = .ok vs →
        ∀ x ∈ s.secretVars, x ∈ vs := by
      intro ps
      induction ps with
      | nil => intro vs h; simp at h
      | cons p0 ps ihp =>
        intro vs hm hv x hx
        simp only [List.map_cons, Tree.secretVarsL] at hv
        obtain ⟨v1, a1, hv⟩ := bind_ok_iff.mp hv
        obtain ⟨v2, a2, hv⟩ := bind_ok_iff.mp hv
        simp only [Except.ok.injEq] at hv
        subst hv
        rcases List.mem_cons.mp hm with rfl | hm
        · exact List.mem_append_left _ (ih _ a1 x hx)
        · exact List.mem_append_right _ (ihp v2 hm a2 x hx)
    exact this subs vs hp hv

/-- The dictionary of a conjunction. -/
theorem dict_seldom (hM : M ≠ 0) (hq : 0 < q) {σ : Store} {vs : List Sec} {bs : List (Pt E)}
    (hl : vs.length = bs.length) (ho : ∀ b ∈ bs, q ∣ b.grp.order ∧ b.grp.order ∣ M) {s : DLRep E} {x : Sec} {b : Pt E}
    (hf : Free q σ.name s x b) (hx : x ∈ vs) (v : E) :
    Seldom M q (fun D => lin σ D s = v) (starting σ (Tree.drawDict (Tree.orderDict σ vs bs))) := by
  obtain ⟨h1, h2⟩ := Tree.orderDict_go σ (vs.zip bs) [] trivial
  refine draws_seldom hM hq h1 ?_ hf ?_ v
  · have hset : ∀ (d : Dict Nat) (s : Sec) (o : Nat), (∀ e ∈ d, q ∣ e.2 ∧ e.2 ∣ M) → (q ∣ o ∧ o ∣ M) →
        ∀ e ∈ Dict.set σ d s o, q ∣ e.2 ∧ e.2 ∣ M := by
      intro d s o hd ho
      induction d with
      | nil => intro e he; simp only [Dict.set, List.mem_singleton] at he; subst he; exact ho
      | cons kv d ih =>
        intro e he
        obtain ⟨k, w⟩ := kv
        simp only [Dict.set] at he
        split at he
        · rcases List.mem_cons.mp he with rfl | he
          · exact ho
          · exact hd e (by simp [he])
        · rcases List.mem_cons.mp he with rfl | he
          · exact hd _ (by simp)
          · exact ih (fun e he => hd e (by simp [he])) e he
    have go : ∀ (z : List (Sec × Pt E)) (d : Dict Nat), (∀ e ∈ z, q ∣ e.2.grp.order ∧ e.2.grp.order ∣ M) →
        (∀ e ∈ d, q ∣ e.2 ∧ e.2 ∣ M) →
        ∀ e ∈ z.foldl (fun d sg => Dict.set σ d sg.1 sg.2.grp.order) d, q ∣ e.2 ∧ e.2 ∣ M := by
      intro z
      induction z with
      | nil => intro d _ hd; exact hd
      | cons e z ih => intro d hz hd; exact ih _ (fun e he => hz e (by simp [he])) (hset d _ _ hd (hz e (by simp)))
    exact go _ _ (fun e he => ho e.2 (List.of_mem_zip he).2) (by simp)
  · obtain ⟨c, hc⟩ := Tree.mem_zip_left hx (le_of_eq hl)
    exact h2 x (.inr ⟨x, c, hc, rfl⟩)

theorem free_mem {s : DLRep E} {x : Sec} {b : Pt E} (h : Free q name s x b) : x ∈ s.secretVars := by
  obtain ⟨i, h1, _⟩ := h
  exact List.mem_of_getElem? h1

theorem dir_alone (kit : Kit (E := E) (L := L) q M dl op name) {s : DLRep E} {x : Sec} {b : Pt E}
    (hf : Free q name s x b) {p : PTree E L P} (h : Dir dl s p) (hr : Reg q M p) {σ : Store} (hσ : σ.name = name)
    (v : Val E) : Seldom M q (fun a => content a.1 = v) (starting σ (PTree.internalCommit p none)) := by
  have hd := h
  cases h with
  | leaf p h =>
    simp only [PTree.internalCommit]
    refine (kit.alone p s x b σ v h hf hσ).before (kit.steps p none σ) fun a a' w w' _ hk hp => ?_
    rw [pm_pure_iff] at hk
    simp only [Prod.mk.injEq] at hk
    obtain ⟨rfl, _⟩ := hk
    exact hp
  | and bb subs p hp h =>
    obtain ⟨φ, hφ⟩ := dir_shows kit h
    obtain ⟨i, hi⟩ := List.mem_iff_getElem?.mp hp
    have hreg := reg_stmt hr
    have hvars := dir_vars kit hd
    rw [PTree.stmtOf] at hreg hvars
    simp only [PTree.internalCommit]
    refine .get (.lift fun _ _ => ?_)
    cases hv : Tree.secretVars (Tree.and bb (PTree.stmtOfL subs)) with
    | error e =>
      refine .never fun r a w h => ?_
      obtain ⟨D, w1, h1, _⟩ := pm_bind.mp h
      simp only [Tree.updateRandomizers, Tree.updateRandomizersWith, Tree.getRandomizers] at h1
      rw [pm_getStore_bind] at h1
      obtain ⟨vs, e1, _⟩ := pm_liftE_bind_iff.mp h1
      rw [hv] at e1; cases e1
    | ok vs =>
    cases hb : Tree.bases (Tree.and bb (PTree.stmtOfL subs)) with
    | error e =>
      refine .never fun r a w h => ?_
      obtain ⟨D, w1, h1, _⟩ := pm_bind.mp h
      simp only [Tree.updateRandomizers, Tree.updateRandomizersWith, Tree.getRandomizers] at h1
      rw [pm_getStore_bind] at h1
      obtain ⟨vs, _, h1⟩ := pm_liftE_bind_iff.mp h1
      obtain ⟨bs, e1, _⟩ := pm_liftE_bind_iff.mp h1
      rw [hb] at e1; cases e1
    | ok bs =>
    obtain ⟨hl, ho⟩ := hreg vs bs hv hb
    have hsec : ∀ y ∈ s.secretVars, y ∈ vs := hvars vs hv
    have e : starting σ (Tree.updateRandomizers (Tree.and bb (PTree.stmtOfL subs)) none) =
        starting σ (Tree.drawDict (Tree.orderDict σ vs bs)) := by
      funext r
      simp only [starting, Tree.updateRandomizers, Tree.updateRandomizersWith, Tree.getRandomizers]
      rw [pm_getStore_bind, hv, pm_liftE_bind, hb, pm_liftE_bind]
    have hcov : ∀ r D w, starting σ (Tree.updateRandomizers (Tree.and bb (PTree.stmtOfL subs)) none) r = .ok (D, w) →
        Covers σ D s := by
      intro r D w h
      obtain ⟨_, g1, g2⟩ := Tree.getRandomizers_ok (w := ⟨σ, r⟩) hv hb (le_of_eq hl) h
      exact ⟨g1, fun y hy => Option.isSome_iff_exists.mpr (g2 y (hsec y hy))⟩
    have hend : ∀ D (com : Val E) p' w w', Covers σ D s → w.store = σ →
        (do let (vs, subs') ← PTree.internalCommitL subs D
            pure (.list vs, .and bb subs') : PM (Val E × PTree E L P)) w = .ok ((com, p'), w') →
        entry i φ (content com) = some (lin σ D s) := by
      intro D com p' w w' hc hw h
      obtain ⟨⟨vs', subs'⟩, w2, h2, h⟩ := pm_bind.mp h
      rw [pm_pure_iff] at h
      simp only [Prod.mk.injEq] at h
      obtain ⟨⟨rfl, rfl⟩, rfl⟩ := h
      obtain ⟨v', p1, w3, w4, g1, g2, g3⟩ := commitL_at kit subs D w _ vs' subs' h2 i p hi
      rw [entry_list g3, hφ D w3 v' p1 w4 g2 (by rw [g1, hw]; exact hc), g1, hw]
    by_cases hφv : ∃ c, entry i φ v = some c
    · obtain ⟨c, hc⟩ := hφv
      have key := dict_seldom (M := M) kit.pos kit.pos' hl ho (by rw [hσ]; exact hf) (hsec x (free_mem hf)) c (σ := σ)
      rw [← e] at key
      have key' := key.mono (P' := fun D => Covers σ D s → lin σ D s = c) fun r D w h hP => hP (hcov r D w h)
      refine key'.before (update_steps σ _ none) fun D a w w' hw hk hp hcv => ?_
      have := hend D a.1 a.2 w w' hcv hw hk
      rw [hp, hc] at this
      exact (Option.some.inj this).symm
    · refine .never fun r a w h hp => ?_
      obtain ⟨D, w1, h1, h⟩ := pm_bind.mp h
      have hw := (update_steps σ _ none).result (r := r) h1
      have := hend D a.1 a.2 w1 w (hcov r D w1 h1) hw h
      rw [hp] at this
      exact hφv ⟨_, this⟩

theorem slots_real {α : Type} {idx : Nat} {real : α} {sims : List α} : ∀ {k index : Nat} {vs : List α},
    PTree.orSlotsGo idx real sims k index = .ok vs → index ≤ idx → idx < index + k → vs[idx - index]? = some real
  | 0, index, vs, h, h1, h2 => by omega
  | k + 1, index, vs, h, h1, h2 => by
    simp only [PTree.orSlotsGo] at h
    split at h
    · rename_i he
      obtain ⟨a, ha, h⟩ := bind_ok_iff.mp h
      obtain ⟨as, has, h⟩ := bind_ok_iff.mp h
      simp only [Except.ok.injEq] at h ha
      subst h; subst ha; subst he
      simp
    · rename_i he
      split at h
      · obtain ⟨a, ha, h⟩ := bind_ok_iff.mp h
        obtain ⟨as, has, h⟩ := bind_ok_iff.mp h
        simp only [Except.ok.injEq] at h
        subst h
        have := slots_real has (by omega) (by omega)
        rw [show idx - index = (idx - (index + 1)) + 1 by omega]
        simpa using this
      · obtain ⟨a, ha, h⟩ := bind_ok_iff.mp h
        cases ha

theorem or_seldom {b : Bool} {i : Nat} {stmts : List (Tree L)} {sub : PTree E L P} {sims : List (Sim E)} {σ : Store}
    (hi : i < stmts.length) (hl : ∀ (p : P) o σ, Steps (Same σ) (starting σ (ProverOps.internalCommit p o)))
    (h : ∀ v, Seldom M q (fun a => content a.1 = v) (starting σ (PTree.internalCommit sub none)))
    (o : Option (Dict Int)) (v : Val E) :
    Seldom M q (fun a => content a.1 = v) (starting σ (PTree.internalCommit (.or b i stmts sub sims) o)) := by
  simp only [PTree.internalCommit]
  refine .get (.lift fun _ _ => ?_)
  by_cases hv : ∃ l u, v = .list l ∧ l[i]? = some u
  · obtain ⟨l, u, rfl, hu⟩ := hv
    refine (h u).before (commit_steps hl sub none σ) fun a a' w w' _ hk hp => ?_
    obtain ⟨vs, hvs, hk⟩ := pm_liftE_bind_iff.mp hk
    rw [pm_pure_iff] at hk
    simp only [Prod.mk.injEq] at hk
    obtain ⟨rfl, _⟩ := hk
    have : vs[i]? = _ := slots_real hvs (Nat.zero_le _) (by omega)
    simp only [content, Val.list.injEq] at hp
    rw [← hp, contentL_get, this] at hu
    exact Option.some.inj hu
  · refine .never fun r a w h hp => hv ?_
    obtain ⟨a1, w1, _, hk⟩ := pm_bind.mp h
    obtain ⟨vs, hvs, hk⟩ := pm_liftE_bind_iff.mp hk
    rw [pm_pure_iff] at hk
    simp only [Prod.mk.injEq] at hk
    obtain ⟨rfl, _⟩ := hk
    have : vs[i]? = _ := slots_real hvs (Nat.zero_le _) (by omega)
    exact ⟨contentL vs, content a1.1, hp.symm, by rw [contentL_get, this]; rfl⟩

/-- A prover with an open place has any given commitment in at most one of `q` cases. -/
theorem opn_seldom (kit : Kit (E := E) (L := L) q M dl op name) {p : PTree E L P} (h : Opn q name dl op p)
    (hr : Reg q M p) : ∀ (o : Option (Dict Int)) (σ : Store), σ.name = name → ∀ v : Val E,
      Seldom M q (fun a => content a.1 = v) (starting σ (PTree.internalCommit p o)) := by
  induction h with
  | leaf p h =>
    intro o σ hσ v
    simp only [PTree.internalCommit]
    refine (kit.opened p o σ v h hσ).before (kit.steps p o σ) fun a a' w w' _ hk hp => ?_
    rw [pm_pure_iff] at hk
    simp only [Prod.mk.injEq] at hk
    obtain ⟨rfl, _⟩ := hk
    exact hp
  | and b subs p hp _ ih =>
    intro o σ hσ v
    have ihp := ih (by cases hr with | and _ _ h => exact h p hp)
    have loop : ∀ (ps : List (PTree E L P)), p ∈ ps → ∀ (D : Dict Int) (l : List (Val E)),
        Seldom M q (fun a => contentL a.1 = l) (starting σ (PTree.internalCommitL ps D)) := by
      intro ps
      induction ps with
      | nil => intro h; simp at h
      | cons p0 ps ihps =>
        intro hm D l
        simp only [PTree.internalCommitL]
        by_cases hl : ∃ u l', l = u :: l'
        · obtain ⟨u, l', rfl⟩ := hl
          rcases List.mem_cons.mp hm with rfl | hm
          · refine (ihp (some D) σ hσ u).before (commit_steps kit.steps _ _ σ) fun a a' w w' _ hk hp => ?_
            obtain ⟨as, w1, _, hk⟩ := pm_bind.mp hk
            rw [pm_pure_iff] at hk
            simp only [Prod.mk.injEq] at hk
            obtain ⟨rfl, _⟩ := hk
            simp only [contentL, List.cons.injEq] at hp
            exact hp.1
          · refine .after (commit_steps kit.steps p0 _ σ) fun a τ hτ => ?_
            subst hτ
            refine (ihps hm D l').before (τ := τ) ?_ fun as a' w w' _ hk hp => ?_
            · exact commitL_steps kit.steps ps D τ
            · rw [pm_pure_iff] at hk
              simp only [Prod.mk.injEq] at hk
              obtain ⟨rfl, _⟩ := hk
              simp only [contentL, List.cons.injEq] at hp
              exact hp.2
        · refine .never fun r a w h hp => hl ?_
          obtain ⟨a1, w1, _, hk⟩ := pm_bind.mp h
          obtain ⟨as, w1, _, hk⟩ := pm_bind.mp hk
          rw [pm_pure_iff] at hk
          simp only [Prod.mk.injEq] at hk
          obtain ⟨rfl, _⟩ := hk
          exact ⟨_, _, hp.symm⟩
    simp only [PTree.internalCommit]
    refine .get (.lift fun _ _ => .after (update_steps σ _ o) fun D τ hτ => ?_)
    subst hτ
    by_cases hv : ∃ l, v = .list l
    · obtain ⟨l, rfl⟩ := hv
      refine (loop subs hp D l).before (commitL_steps kit.steps subs D τ) fun as a' w w' _ hk hp => ?_
      rw [pm_pure_iff] at hk
      simp only [Prod.mk.injEq] at hk
      obtain ⟨rfl, _⟩ := hk
      simpa only [content, Val.list.injEq] using hp
    · refine .never fun r a w h hp => hv ?_
      obtain ⟨a1, w1, _, hk⟩ := pm_bind.mp h
      rw [pm_pure_iff] at hk
      simp only [Prod.mk.injEq] at hk
      obtain ⟨rfl, _⟩ := hk
      exact ⟨_, hp.symm⟩
  | orDir b i stmts sub sims s x g hi h hf =>
    intro o σ hσ v
    exact or_seldom hi kit.steps (fun v => dir_alone kit hf h (by cases hr with | or _ _ _ _ _ _ h => exact h) hσ v) o v
  | orOpn b i stmts sub sims hi _ ih =>
    intro o σ hσ v
    exact or_seldom hi kit.steps (fun v => ih (by cases hr with | or _ _ _ _ _ _ h => exact h) none σ hσ v) o v

/-- What is said of provers. -/
def Live (q : Nat) (name : Sec → String) (dl : P → DLRep E → Prop) (op : P → Prop) (p : PTree E L P) : Prop :=
  Opn q name dl op p ∨ ∃ s x g, Dir dl s p ∧ Free q name s x g

theorem live_seldom (kit : Kit (E := E) (L := L) q M dl op name) {p : PTree E L P} (h : Live q name dl op p)
    (hr : Reg q M p) {σ : Store} (hσ : σ.name = name) (v : Val E) :
    Seldom M q (fun a => content a.1 = v) (starting σ (PTree.internalCommit p none)) := by
  rcases h with h | ⟨s, x, g, h, hf⟩
  · exact opn_seldom kit h hr none σ hσ v
  · exact dir_alone kit hf h hr hσ v

end generic

end Zksk.Chance
