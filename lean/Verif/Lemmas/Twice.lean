import Verif.Lemmas.Frame
import Verif.Lemmas.Known
import Verif.Props.Statement

/-! One extended statement used twice in a conjunction: both uses answer for the same secrets. -/

set_option linter.unusedSectionVars false

namespace Zksk

open Spec

variable {E : Type} [AddCommGroup E] [DecidableEq E]

namespace Twice

/-! ### The first entry of a dictionary stays where it is -/

theorem set_head {σ : Store} {z y : Sec} {a b : Int} {l : Dict Int} (hz : σ.value z = some a)
    (hy : σ.value y = some b) : ∃ l', Dict.set σ ((z, a) :: l) y b = (z, a) :: l' := by
  simp only [Dict.set]
  split
  · rename_i h
    have : σ.value z = σ.value y := congrArg Prod.snd h
    rw [hz, hy] at this
    exact ⟨l, by rw [Option.some.inj this]⟩
  · exact ⟨_, rfl⟩

theorem update_head {σ : Store} {z : Sec} {a : Int} (hz : σ.value z = some a) :
    ∀ {d l : Dict Int}, Told σ d → ∃ l', Dict.update σ ((z, a) :: l) d = (z, a) :: l'
  | [], l, _ => ⟨l, rfl⟩
  | e :: d, l, hd => by
    obtain ⟨l', h⟩ := set_head (l := l) hz (hd e (by simp))
    have : Dict.update σ ((z, a) :: l) (e :: d) = Dict.update σ (Dict.set σ ((z, a) :: l) e.1 e.2) d := rfl
    rw [this, h]
    exact update_head hz fun e' he' => hd e' (by simp [he'])

theorem known_head {σ : Store} {z : Sec} {a : Int} (hz : σ.value z = some a) :
    ∀ {vs : List Sec} {l : Dict Int}, ∃ l', knownValues σ vs ((z, a) :: l) = (z, a) :: l'
  | [], l => ⟨l, rfl⟩
  | y :: vs, l => by
    simp only [knownValues]
    cases hy : σ.value y with
    | none => exact known_head hz
    | some b =>
      obtain ⟨l', h⟩ := set_head (l := l) hz hy
      simp only [h]
      exact known_head hz

theorem vals_head {σ : Store} {z : Sec} {a : Int} (hz : σ.value z = some a) {vs : List Sec} {d : Dict Int}
    (hd : Told σ d) : ∃ l, Dict.update σ (knownValues σ (z :: vs) []) d = (z, a) :: l := by
  have : knownValues σ (z :: vs) [] = knownValues σ vs [(z, a)] := by
    simp only [knownValues, hz, Dict.set]
  rw [this]
  obtain ⟨l, h⟩ := known_head hz (vs := vs) (l := [])
  rw [h]
  exact update_head hz hd

/-! ### Steps of the prover -/

/-- The prover of the first representation: it will answer for `z` with the value `a`. -/
structure First (z : Sec) (a : Int) (q : Nat) (p : DLRepProver E) : Prop where
  vars : ∃ l, p.stmt.secretVars = z :: l
  bases : ∃ b bs, p.stmt.bases = b :: bs ∧ b.grp.order = q
  vals : ∃ l, p.secretValues = (z, a) :: l

theorem getProver_first {r : DLRep E} {ts : List (Core E)} {d : Dict Int} {w w' : World} {cp? : Option (CoreProver E)}
    {t' : Core E} {z : Sec} {a : Int} {q : Nat} {l : List Sec} (hv : r.secretVars = z :: l)
    (hb : ∃ b bs, r.bases = b :: bs ∧ b.grp.order = q) (hk : r.secretValues = knownValues w.store r.secretVars [])
    (hz : w.store.value z = some a) (hd : Told w.store d) (hu : updateSecretValues w.store d = w.store)
    (h : (PTree.getProver (.and false (.leaf r :: ts)) d : PM (Option (CoreProver E) × Core E)) w =
      .ok ((cp?, t'), w')) :
    w'.store = w.store ∧ ∃ p ps ts', cp? = some (.and false (.leaf p :: ps)) ∧
      t' = .and false (.leaf p.stmt :: ts') ∧ First z a q p := by
  have hw : w'.store = w.store := by
    refine frame_getProver keepCore (frameCore (J := fun σ => σ = w.store) (d := d) ?_) _ (fun _ _ => trivial) _ _ _ rfl h
    rintro σ rfl; exact hu
  refine ⟨hw, ?_⟩
  simp only [PTree.getProver] at h
  rw [pm_getStore_bind, pm_setStore_bind, hu] at h
  simp only [Bool.false_eq_true, if_false] at h
  obtain ⟨⟨ps, ts1⟩, w1, h1, h⟩ := pm_bind.mp h
  simp only [PTree.getProverL] at h1
  obtain ⟨⟨p?, t1⟩, w2, h2, h1⟩ := pm_bind.mp h1
  obtain ⟨⟨ps2, ts2⟩, w3, h3, h1⟩ := pm_bind.mp h1
  rw [pm_pure_iff, Prod.mk.injEq, Prod.mk.injEq] at h1
  simp only at h1
  obtain ⟨⟨rfl, rfl⟩, rfl⟩ := h1
  simp only [PTree.getProver] at h2
  obtain ⟨⟨q?, r'⟩, w4, h4, h2⟩ := pm_bind.mp h2
  rw [pm_pure_iff, Prod.mk.injEq, Prod.mk.injEq] at h2
  simp only at h2
  obtain ⟨⟨rfl, rfl⟩, rfl⟩ := h2
  have h4' : DLRepProver.getProver r d w = .ok ((q?, r'), w4) := h4
  unfold DLRepProver.getProver at h4'
  rw [pm_getStore_bind] at h4'
  cases q? with
  | none =>
    simp only [Option.map_none, PTree.allSome] at h
    exact (raise_ne.mp h).elim
  | some p =>
    split at h4'
    · rw [pm_pure_iff, Prod.mk.injEq, Prod.mk.injEq] at h4'
      exact absurd h4'.1.1 (by simp)
    · rw [pm_pure_iff, Prod.mk.injEq, Prod.mk.injEq] at h4'
      obtain ⟨⟨h5, rfl⟩, rfl⟩ := h4'
      injection h5 with h5
      simp only [Option.map_some, PTree.allSome] at h
      cases hall : PTree.allSome ps2 with
      | none => rw [hall] at h; exact (raise_ne.mp h).elim
      | some ps3 =>
        rw [hall] at h
        simp only [Option.map_some] at h
        rw [pm_pure_iff, Prod.mk.injEq, Prod.mk.injEq] at h
        obtain ⟨⟨rfl, rfl⟩, _⟩ := h
        refine ⟨p, ps3, ts2, rfl, by rw [← h5], ?_, ?_, ?_⟩
        · rw [← h5]; exact ⟨l, hv⟩
        · rw [← h5]; exact hb
        · rw [← h5, hk, hv]; exact vals_head hz hd

theorem uniq_randomizers {L : Type} [StmtOps E L] {t : Tree L} {w w' : World} {d : Dict Int}
    (h : Tree.getRandomizers t w = .ok (d, w')) : w'.store = w.store ∧ d.Uniq w.store := by
  unfold Tree.getRandomizers at h
  rw [pm_getStore_bind, pm_liftE_bind_iff] at h
  obtain ⟨vars, _, h⟩ := h
  rw [pm_liftE_bind_iff] at h
  obtain ⟨bs, _, h⟩ := h
  obtain ⟨e1, e2⟩ := Tree.drawDict_ok _ _ _ _ h
  exact ⟨e1, Dict.Uniq.keys e2.symm (Tree.orderDict_go w.store (vars.zip bs) [] trivial).1⟩

/-- Given randomizers are used. -/
theorem given_randomizers {vars : Except Err (List Sec)} {g : PM (Dict Int)} {w w' : World} {D D' : Dict Int}
    {z : Sec} {k : Int} (hg : ∀ d w', g w = .ok (d, w') → w'.store = w.store ∧ d.Uniq w.store)
    (hD : D.Uniq w.store) (hk : Dict.get? w.store D z = some k)
    (h : Tree.updateRandomizersWith vars g (some D) w = .ok (D', w')) :
    w'.store = w.store ∧ D'.Uniq w.store ∧ Dict.get? w.store D' z = some k := by
  simp only [Tree.updateRandomizersWith] at h
  rw [pm_getStore_bind, pm_liftE_bind_iff] at h
  obtain ⟨vs, _, h⟩ := h
  split at h
  · obtain ⟨tmp, w2, h2, h⟩ := pm_bind.mp h
    rw [pm_pure_iff, Prod.mk.injEq] at h
    obtain ⟨rfl, rfl⟩ := h
    obtain ⟨e1, e2⟩ := hg _ _ h2
    exact ⟨e1, Dict.Uniq.update e2, Dict.get?_update_uniq hD tmp z k hk⟩
  · rw [pm_pure_iff, Prod.mk.injEq] at h
    obtain ⟨rfl, rfl⟩ := h
    exact ⟨rfl, hD, hk⟩

theorem commit_rep {p p' : DLRepProver E} {w w' : World} {v : Val E} {D : Dict Int} {z : Sec} {k a : Int} {q : Nat}
    (hp : First z a q p) (hD : D.Uniq w.store) (hk : Dict.get? w.store D z = some k)
    (h : DLRepProver.internalCommit p (some D) w = .ok ((v, p'), w')) :
    w'.store = w.store ∧ ∃ ks, p' = { p with ks := some (k :: ks) } := by
  unfold DLRepProver.internalCommit at h
  obtain ⟨D', w1, h1, h⟩ := pm_bind.mp h
  obtain ⟨e1, _, e3⟩ := given_randomizers (fun d w' h =>
    (DLRep.getRandomizers_ok h).imp id fun h => h.1) hD hk h1
  rw [pm_getStore_bind, pm_liftE_bind_iff] at h
  obtain ⟨ks, h2, h⟩ := h
  rw [pm_liftE_bind_iff] at h
  obtain ⟨com, _, h⟩ := h
  rw [pm_pure_iff, Prod.mk.injEq, Prod.mk.injEq] at h
  obtain ⟨⟨rfl, rfl⟩, rfl⟩ := h
  refine ⟨e1, ?_⟩
  obtain ⟨l, hl⟩ := hp.vars
  rw [hl] at h2
  simp only [DLRep.lookupAll] at h2
  obtain ⟨k', h3, h2⟩ := bind_ok_iff.mp h2
  obtain ⟨ks', _, h2⟩ := bind_ok_iff.mp h2
  injection h2 with h2
  rw [e1] at h3
  simp only [Dict.get, e3, Except.ok.injEq] at h3
  exact ⟨ks', by rw [← h2, h3]⟩

theorem frame_commit_dlrep {J : Store → Prop} (p : DLRepProver E) (d : Option (Dict Int)) :
    Frame J (DLRepProver.internalCommit p d) := by
  unfold DLRepProver.internalCommit
  refine frame_bind (frame_updateRandomizersWith ?_ d) fun _ => frame_bind frame_getStore fun _ =>
    frame_bind (frame_liftE _) fun _ => frame_bind (frame_liftE _) fun _ => frame_pure _
  intro w a w' hw h
  rw [(DLRep.getRandomizers_ok h).1]; exact hw

theorem frame_commit {J : Store → Prop} : ∀ (p : CoreProver E) (d : Option (Dict Int)),
    Frame J (PTree.internalCommit p d) := by
  intro p
  induction p using PTree.ind with
  | leaf p =>
    intro d
    simp only [PTree.internalCommit]
    exact frame_bind (frame_commit_dlrep p d) fun _ => frame_pure _
  | and s ps ih =>
    intro d
    have loop : ∀ (ps : List (CoreProver E)), (∀ p ∈ ps, ∀ d, Frame J (PTree.internalCommit p d)) → ∀ d,
        Frame J (PTree.internalCommitL ps d) := by
      intro ps
      induction ps with
      | nil => intro _ d; simp only [PTree.internalCommitL]; exact frame_pure _
      | cons p ps ihl =>
        intro hm d
        simp only [PTree.internalCommitL]
        exact frame_bind (hm p (by simp) _) fun _ => frame_bind (ihl (fun p hp => hm p (by simp [hp])) d) fun _ =>
          frame_pure _
    simp only [PTree.internalCommit]
    exact frame_bind frame_getStore fun _ => frame_bind (frame_liftE _) fun _ =>
      frame_bind (frame_updateRandomizers _ _) fun _ => frame_bind (loop ps ih _) fun _ => frame_pure _
  | or s i ts p sims ih =>
    intro d
    simp only [PTree.internalCommit]
    exact frame_bind frame_getStore fun _ => frame_bind (frame_liftE _) fun _ =>
      frame_bind (ih none) fun _ => frame_bind (frame_liftE _) fun _ => frame_pure _

theorem commit_first {s : Bool} {p : DLRepProver E} {ps : List (CoreProver E)} {cp' : CoreProver E} {w w' : World}
    {v : Val E} {D : Dict Int} {z : Sec} {k a : Int} {q : Nat} (hp : First z a q p) (hD : D.Uniq w.store)
    (hk : Dict.get? w.store D z = some k)
    (h : PTree.internalCommit (.and s (.leaf p :: ps) : CoreProver E) (some D) w = .ok ((v, cp'), w')) :
    w'.store = w.store ∧ ∃ ks ps', cp' = .and s (.leaf { p with ks := some (k :: ks) } :: ps') := by
  have hw : w'.store = w.store := frame_commit (J := fun σ => σ = w.store) _ _ _ _ _ rfl h
  refine ⟨hw, ?_⟩
  simp only [PTree.internalCommit] at h
  rw [pm_getStore_bind, pm_liftE_bind_iff] at h
  obtain ⟨_, _, h⟩ := h
  obtain ⟨D', w1, h1, h⟩ := pm_bind.mp h
  obtain ⟨e1, e2, e3⟩ := given_randomizers (fun d w' h => uniq_randomizers h) hD hk h1
  obtain ⟨⟨vs, ps'⟩, w2, h2, h⟩ := pm_bind.mp h
  rw [pm_pure_iff, Prod.mk.injEq, Prod.mk.injEq] at h
  simp only at h
  obtain ⟨⟨rfl, rfl⟩, rfl⟩ := h
  simp only [PTree.internalCommitL] at h2
  obtain ⟨⟨v1, p1⟩, w3, h3, h2⟩ := pm_bind.mp h2
  obtain ⟨⟨vs2, ps2⟩, w4, h4, h2⟩ := pm_bind.mp h2
  rw [pm_pure_iff, Prod.mk.injEq, Prod.mk.injEq] at h2
  simp only at h2
  obtain ⟨⟨rfl, rfl⟩, rfl⟩ := h2
  simp only [PTree.internalCommit] at h3
  obtain ⟨⟨v2, p2⟩, w5, h5, h3⟩ := pm_bind.mp h3
  rw [pm_pure_iff, Prod.mk.injEq, Prod.mk.injEq] at h3
  simp only at h3
  obtain ⟨⟨rfl, rfl⟩, rfl⟩ := h3
  obtain ⟨_, ks, hp2⟩ := commit_rep hp (by rw [e1]; exact e2) (by rw [e1]; exact e3) h5
  exact ⟨ks, ps2, by rw [hp2]⟩

theorem respond_first {s : Bool} {p : DLRepProver E} {ps : List (CoreProver E)} {w w' : World} {r : Val E}
    {z : Sec} {k a c : Int} {q : Nat} {ks : List Int} (hp : First z a q p)
    (h : PTree.computeResponse (.and s (.leaf { p with ks := some (k :: ks) } :: ps) : CoreProver E) c w =
      .ok (r, w')) :
    ∃ l rs, r = .list (.list (.int ((a * c + k) % (q : Int)) :: l) :: rs) := by
  simp only [PTree.computeResponse] at h
  obtain ⟨rs, w1, h1, h⟩ := pm_bind.mp h
  rw [pm_pure_iff, Prod.mk.injEq] at h
  obtain ⟨rfl, rfl⟩ := h
  simp only [PTree.computeResponseL] at h1
  obtain ⟨r1, w2, h2, h1⟩ := pm_bind.mp h1
  obtain ⟨rs1, w3, _, h1⟩ := pm_bind.mp h1
  rw [pm_pure_iff, Prod.mk.injEq] at h1
  obtain ⟨rfl, rfl⟩ := h1
  simp only [PTree.computeResponse] at h2
  have h3 : DLRepProver.computeResponse { p with ks := some (k :: ks) } c w = .ok (r1, w2) := h2
  unfold DLRepProver.computeResponse at h3
  rw [pm_getStore_bind] at h3
  obtain ⟨b, bs, hb, hq⟩ := hp.bases
  obtain ⟨l, hl⟩ := hp.vars
  obtain ⟨l', hl'⟩ := hp.vals
  simp only [hb, hl, hl'] at h3
  rw [pm_liftE_bind_iff] at h3
  obtain ⟨rr, h4, h3⟩ := h3
  rw [pm_pure_iff, Prod.mk.injEq] at h3
  obtain ⟨rfl, rfl⟩ := h3
  simp only [DLRepProver.respondGo] at h4
  obtain ⟨x, h5, h4⟩ := bind_ok_iff.mp h4
  obtain ⟨rs2, _, h4⟩ := bind_ok_iff.mp h4
  injection h4 with h4
  simp only [Dict.get, Dict.get?, if_true, Except.ok.injEq] at h5
  subst h5
  exact ⟨rs2.map Val.int, rs1, by rw [← h4, List.map_cons, hq]⟩

/-! ### The two copies -/

/-- What the first representation of the constructed statement looks like. -/
def Leads (sp : ExtSpec E) (z : Sec) (q : Nat) : Prop :=
  ∀ σ v k, sp.construct σ v = .ok k → ∃ (r : DLRep E) (rs : List (DLRep E)),
    k = .and false (.leaf r :: rs.map .leaf) ∧ (∃ l, r.secretVars = z :: l) ∧
    (∃ b bs, r.bases = b :: bs ∧ b.grp.order = q) ∧ r.secretValues = knownValues σ r.secretVars []

theorem world_leaf {r r' : DLRep E} {d : Dict Int} {w w' : World} {p? : Option (DLRepProver E)}
    (h : DLRepProver.getProver r d w = .ok ((p?, r'), w')) : w' = w := by
  unfold DLRepProver.getProver at h
  rw [pm_getStore_bind] at h
  split at h
  · rw [pm_pure_iff, Prod.mk.injEq] at h; exact h.2.symm
  · rw [pm_pure_iff, Prod.mk.injEq] at h; exact h.2.symm

theorem world_leaves {d : Dict Int} : ∀ {rs : List (DLRep E)} {w w' : World}
    {x : List (Option (CoreProver E)) × List (Core E)},
    (PTree.getProverL (rs.map .leaf) d : PM _) w = .ok (x, w') → w' = w
  | [], w, w', x, h => by
    simp only [List.map_nil, PTree.getProverL] at h
    rw [pm_pure_iff, Prod.mk.injEq] at h
    exact h.2.symm
  | r :: rs, w, w', x, h => by
    simp only [List.map_cons, PTree.getProverL] at h
    obtain ⟨⟨p?, t1⟩, w2, h2, h⟩ := pm_bind.mp h
    obtain ⟨⟨ps2, ts2⟩, w3, h3, h⟩ := pm_bind.mp h
    rw [pm_pure_iff, Prod.mk.injEq] at h
    simp only [PTree.getProver] at h2
    obtain ⟨⟨q?, r'⟩, w4, h4, h2⟩ := pm_bind.mp h2
    rw [pm_pure_iff, Prod.mk.injEq] at h2
    have e1 : w4 = w := world_leaf (show DLRepProver.getProver r d w = _ from h4)
    rw [← h.2, world_leaves h3, ← h2.2, e1]

theorem world_first {r : DLRep E} {rs : List (DLRep E)} {d : Dict Int} {w w' : World}
    {x : Option (CoreProver E) × Core E} (hu : updateSecretValues w.store d = w.store)
    (h : (PTree.getProver (.and false (.leaf r :: rs.map .leaf)) d : PM _) w = .ok (x, w')) : w' = w := by
  simp only [PTree.getProver] at h
  rw [pm_getStore_bind, pm_setStore_bind, hu] at h
  simp only [Bool.false_eq_true, if_false] at h
  obtain ⟨⟨ps, ts1⟩, w1, h1, h⟩ := pm_bind.mp h
  have e1 : w1 = w := world_leaves (rs := r :: rs) h1
  simp only at h
  cases hall : PTree.allSome ps with
  | none => rw [hall] at h; exact (raise_ne.mp h).elim
  | some ps' =>
    rw [hall] at h
    rw [pm_pure_iff, Prod.mk.injEq] at h
    rw [← h.2, e1]

/-- One copy after its precommitment. -/
structure Made (e : Ext E) (z : Sec) (a : Int) (q : Nat) (P : ExtProver E) : Prop where
  made : ∃ p ps ts, P.constructed = some (.and false (.leaf p :: ps)) ∧
    P.stmt.constructed = some (.and false (.leaf p.stmt :: ts)) ∧ First z a q p

theorem precommit_copy {e : Ext E} {d : Dict Int} {w w1 w' : World} {v1 v : Val E} {P : ExtProver E} {z : Sec}
    {a : Int} {q : Nat} (hb : Leads e.spec z q) (h1 : e.spec.precommit w = .ok (v1, w1))
    (hz : w1.store.value z = some a) (hd : Told w1.store d) (hu : updateSecretValues w1.store d = w1.store)
    (h : ExtProver.precommit ⟨e, d, none⟩ w = .ok ((v, P), w')) :
    v = v1 ∧ w' = w1 ∧ Made e z a q P := by
  unfold ExtProver.precommit at h
  rw [pm_bind_eq h1, pm_getStore_bind, pm_liftE_bind_iff] at h
  obtain ⟨s1, h2, h⟩ := h
  rw [pm_liftE_bind_iff] at h
  obtain ⟨t1, h3, h⟩ := h
  obtain ⟨⟨cp, t2⟩, w2, h4, h⟩ := pm_bind.mp h
  rw [pm_pure_iff, Prod.mk.injEq, Prod.mk.injEq] at h
  simp only at h
  obtain ⟨⟨rfl, rfl⟩, rfl⟩ := h
  unfold Ext.fullConstruct at h2
  obtain ⟨k, hc, h2⟩ := bind_ok_iff.mp h2
  injection h2 with h2
  subst h2
  simp only [Ext.inner, Except.ok.injEq] at h3
  subst h3
  obtain ⟨r, rs, rfl, ⟨l, hv⟩, hbs, hk⟩ := hb _ _ _ hc
  obtain ⟨_, p, ps, ts, rfl, rfl, hp⟩ := getProver_first hv hbs hk hz hd hu h4
  exact ⟨rfl, world_first hu h4, ⟨p, ps, ts, rfl, rfl, hp⟩⟩

theorem commit_copy {e : Ext E} {w w' : World} {v : Val E} {P P' : ExtProver E} {z : Sec} {k a : Int} {q : Nat}
    {D : Dict Int} (hP : Made e z a q P) (hD : D.Uniq w.store) (hk : Dict.get? w.store D z = some k)
    (h : ExtProver.internalCommit P (some D) w = .ok ((v, P'), w')) :
    w'.store = w.store ∧ ∃ p ks ps, First z a q p ∧
      P'.constructed = some (.and false (.leaf { p with ks := some (k :: ks) } :: ps)) := by
  obtain ⟨p, ps, ts, h1, h2, hp⟩ := hP
  unfold ExtProver.internalCommit at h
  simp only [h1, h2] at h
  obtain ⟨⟨v', cp⟩, w1, h3, h⟩ := pm_bind.mp h
  rw [pm_pure_iff, Prod.mk.injEq, Prod.mk.injEq] at h
  simp only at h
  obtain ⟨⟨rfl, rfl⟩, rfl⟩ := h
  obtain ⟨e1, ks, ps', rfl⟩ := commit_first hp hD hk h3
  exact ⟨e1, p, ks, ps', hp, rfl⟩

theorem respond_copy {P : ExtProver E} {p : DLRepProver E} {ks : List Int} {ps : List (CoreProver E)} {w w' : World}
    {r : Val E} {z : Sec} {k a c : Int} {q : Nat} (hp : First z a q p)
    (hP : P.constructed = some (.and false (.leaf { p with ks := some (k :: ks) } :: ps)))
    (h : ExtProver.computeResponse P c w = .ok (r, w')) :
    ∃ l rs, r = .list (.list (.int ((a * c + k) % (q : Int)) :: l) :: rs) := by
  unfold ExtProver.computeResponse at h
  simp only [hP] at h
  exact respond_first hp h

theorem randomizer_first {e1 : Ext E} {rest : List (Stmt E)} {r : DLRep E} {ts : List (Core E)} {z : Sec}
    {w w' : World} {D : Dict Int} (hc : e1.constructed = some (.and false (.leaf r :: ts)))
    (hv : ∃ l, r.secretVars = z :: l) (hb : ∃ b bs, r.bases = b :: bs)
    (h : Tree.getRandomizers (.and false (.leaf (.ext e1) :: rest) : Stmt E) w = .ok (D, w')) :
    w'.store = w.store ∧ D.Uniq w.store ∧ ∃ k, Dict.get? w.store D z = some k := by
  obtain ⟨e2, e3⟩ := uniq_randomizers h
  refine ⟨e2, e3, ?_⟩
  obtain ⟨l, hv⟩ := hv
  obtain ⟨b, bs, hb⟩ := hb
  unfold Tree.getRandomizers at h
  rw [pm_getStore_bind, pm_liftE_bind_iff] at h
  obtain ⟨vars, h1, h⟩ := h
  rw [pm_liftE_bind_iff] at h
  obtain ⟨bases, h2, h⟩ := h
  have hvars : ∃ l', vars = z :: l' := by
    simp only [Tree.secretVars, Tree.secretVarsL] at h1
    obtain ⟨x, h3, h1⟩ := bind_ok_iff.mp h1
    obtain ⟨y, _, h1⟩ := bind_ok_iff.mp h1
    injection h1 with h1
    have h3' : (do (← e1.inner).secretVars : Except Err (List Sec)) = .ok x := h3
    simp only [Ext.inner, hc, bind_ok, Tree.secretVars, Tree.secretVarsL] at h3'
    obtain ⟨x1, h4, h3'⟩ := bind_ok_iff.mp h3'
    obtain ⟨x2, _, h3'⟩ := bind_ok_iff.mp h3'
    injection h3' with h3'
    have h4' : (.ok r.secretVars : Except Err (List Sec)) = .ok x1 := h4
    injection h4' with h4'
    exact ⟨_, by rw [← h1, ← h3', ← h4', hv]; rfl⟩
  have hbases : ∃ l', bases = b :: l' := by
    simp only [Tree.bases, Tree.basesL] at h2
    obtain ⟨x, h3, h2⟩ := bind_ok_iff.mp h2
    obtain ⟨y, _, h2⟩ := bind_ok_iff.mp h2
    injection h2 with h2
    have h3' : (do (← e1.inner).bases : Except Err (List (Pt E))) = .ok x := h3
    simp only [Ext.inner, hc, bind_ok, Tree.bases, Tree.basesL] at h3'
    obtain ⟨x1, h4, h3'⟩ := bind_ok_iff.mp h3'
    obtain ⟨x2, _, h3'⟩ := bind_ok_iff.mp h3'
    injection h3' with h3'
    have h4' : (.ok r.bases : Except Err (List (Pt E))) = .ok x1 := h4
    injection h4' with h4'
    exact ⟨_, by rw [← h2, ← h3', ← h4', hb]; rfl⟩
  obtain ⟨l1, rfl⟩ := hvars
  obtain ⟨l2, rfl⟩ := hbases
  obtain ⟨g1, g2⟩ := Tree.drawDict_ok _ _ _ _ h
  have := (Tree.orderDict_go w.store ((z :: l1).zip (b :: l2)) [] trivial).2 z (.inr ⟨z, b, by simp, rfl⟩)
  exact Option.isSome_iff_exists.mp ((Dict.get?_isSome_keys (σ := w.store) g2 z).trans this)

/-- What a proof of `p & p` contains. -/
theorem twice_run {e : Ext E} {d : Dict Int} {env : Env E} {msg : String} {w w1 w2 w' : World} {nizk : NIZK E}
    {v1 v2 : Val E} {t' : Stmt E} {z : Sec} {a1 a2 : Int} {q : Nat} (hb : Leads e.spec z q)
    (h1 : e.spec.precommit { w with store := updateSecretValues w.store d } = .ok (v1, w1))
    (h2 : e.spec.precommit w1 = .ok (v2, w2))
    (hz1 : w1.store.value z = some a1) (hz2 : w2.store.value z = some a2)
    (hd1 : Told w1.store d) (hu1 : updateSecretValues w1.store d = w1.store)
    (hd2 : Told w2.store d) (hu2 : updateSecretValues w2.store d = w2.store)
    (h : prove (LeafProver E) env (.and false [.leaf (.ext e), .leaf (.ext e)]) d msg w = .ok ((nizk, t'), w')) :
    nizk.precommitment = PTree.andPrecommitment [v1, v2] ∧ ∃ k l1 r1 l2 r2, nizk.responses = .list
      [.list (.list (.int ((a1 * nizk.challenge + k) % (q : Int)) :: l1) :: r1),
       .list (.list (.int ((a2 * nizk.challenge + k) % (q : Int)) :: l2) :: r2)] := by
  unfold prove at h
  have hg : (PTree.getProver (.and false [.leaf (.ext e), .leaf (.ext e)]) d : PM (Option (StmtProver E) × Stmt E)) w =
      .ok ((some (.and false [.leaf (.ext ⟨e, d, none⟩), .leaf (.ext ⟨e, d, none⟩)]),
        .and false [.leaf (.ext e), .leaf (.ext e)]),
        { w with store := updateSecretValues (updateSecretValues (updateSecretValues w.store d) d) d }) := rfl
  rw [pm_bind_eq hg, updateSecretValues_idem, updateSecretValues_idem] at h
  simp only at h
  obtain ⟨⟨n, p'⟩, w3, h3, h⟩ := pm_bind.mp h
  rw [pm_pure_iff, Prod.mk.injEq, Prod.mk.injEq] at h
  simp only at h
  obtain ⟨⟨rfl, rfl⟩, rfl⟩ := h
  unfold PTree.getNizkProof at h3
  obtain ⟨⟨v, p1⟩, w4, h4, h3⟩ := pm_bind.mp h3
  obtain ⟨⟨com, p2⟩, w5, h5, h3⟩ := pm_bind.mp h3
  simp only at h3
  rw [pm_getStore_bind, pm_liftE_bind_iff] at h3
  obtain ⟨id, _, h3⟩ := h3
  rw [pm_liftE_bind_iff] at h3
  obtain ⟨c, _, h3⟩ := h3
  obtain ⟨r, w6, h6, h3⟩ := pm_bind.mp h3
  rw [pm_pure_iff, Prod.mk.injEq, Prod.mk.injEq] at h3
  obtain ⟨⟨rfl, rfl⟩, rfl⟩ := h3
  simp only [PTree.precommit, PTree.precommitL, ProverOps.precommit, bind_assoc, pure_bind] at h4
  obtain ⟨⟨u1, P1⟩, w7, h7, h4⟩ := pm_bind.mp h4
  obtain ⟨rfl, rfl, m1⟩ := precommit_copy hb h1 hz1 hd1 hu1 h7
  obtain ⟨⟨u2, P2⟩, w8, h8, h4⟩ := pm_bind.mp h4
  obtain ⟨rfl, rfl, m2⟩ := precommit_copy hb h2 hz2 hd2 hu2 h8
  rw [pm_pure_iff, Prod.mk.injEq, Prod.mk.injEq] at h4
  simp only at h4
  obtain ⟨⟨rfl, rfl⟩, rfl⟩ := h4
  refine ⟨rfl, ?_⟩
  simp only [PTree.internalCommit] at h5
  rw [pm_getStore_bind, pm_liftE_bind_iff] at h5
  obtain ⟨_, _, h5⟩ := h5
  obtain ⟨D, w9, h9, h5⟩ := pm_bind.mp h5
  obtain ⟨p, _, ts, _, g2, hp⟩ := m1.made
  obtain ⟨b, bs, hbs, _⟩ := hp.bases
  obtain ⟨s1, hD, k, hk⟩ := randomizer_first (e1 := P1.stmt) g2 hp.vars ⟨b, bs, hbs⟩ h9
  simp only [PTree.internalCommitL, PTree.internalCommit, ProverOps.internalCommit, bind_assoc, pure_bind] at h5
  obtain ⟨⟨c1, Q1⟩, w10, h10, h5⟩ := pm_bind.mp h5
  obtain ⟨s2, x1, ks1, ps1, f1, q1⟩ := commit_copy m1 (by rw [s1]; exact hD) (by rw [s1]; exact hk) h10
  obtain ⟨⟨c2, Q2⟩, w11, h11, h5⟩ := pm_bind.mp h5
  obtain ⟨s3, x2, ks2, ps2, f2, q2⟩ := commit_copy m2 (by rw [s2, s1]; exact hD) (by rw [s2, s1]; exact hk) h11
  rw [pm_pure_iff, Prod.mk.injEq, Prod.mk.injEq] at h5
  simp only at h5
  obtain ⟨⟨rfl, rfl⟩, rfl⟩ := h5
  simp only [PTree.computeResponse, PTree.computeResponseL, ProverOps.computeResponse, bind_assoc, pure_bind] at h6
  obtain ⟨y1, w12, h12, h6⟩ := pm_bind.mp h6
  obtain ⟨y2, w13, h13, h6⟩ := pm_bind.mp h6
  rw [pm_pure_iff, Prod.mk.injEq] at h6
  obtain ⟨rfl, _⟩ := h6
  obtain ⟨l1, r1, rfl⟩ := respond_copy f1 q1 h12
  obtain ⟨l2, r2, rfl⟩ := respond_copy f2 q2 h13
  exact ⟨k, l1, r1, l2, r2, rfl⟩

theorem embed_ne_ext {e : Ext E} : ∀ k : Core E, embed k ≠ .leaf (.ext e)
  | .leaf s, h => by simp [embed] at h
  | .and b subs, h => by simp [embed] at h
  | .or b subs, h => by simp [embed] at h

theorem digested_ext {σ : Store} {e : Ext E} {v : Val E} {S : Skel E} {k : Core E}
    (h : Digested σ (.leaf (.ext e)) v S k) : e.spec.construct σ v = .ok k := by
  generalize ht : (Tree.leaf (Leaf.ext e) : Stmt E) = t at h
  cases h with
  | bare k => exact (embed_ne_ext k ht.symm).elim
  | rep s v => simp at ht
  | ext s v t hc hv =>
    injection ht with ht; injection ht with ht; subst ht; exact hc
  | all => simp at ht
  | any => simp at ht

theorem digested_pair {σ : Store} {e : Ext E} {v : Val E} {S : Skel E} {k : Core E}
    (h : DigestedTop σ (.and false [.leaf (.ext e), .leaf (.ext e)]) v S k) : ∃ k1 k2 u1 u2, k = .and false [k1, k2] ∧
      e.spec.construct σ u1 = .ok k1 ∧ e.spec.construct σ u2 = .ok k2 := by
  have hbare : ∀ k : Core E, embed k ≠ .and false [.leaf (.ext e), .leaf (.ext e)] := by
    intro k hk
    cases k with
    | leaf s => simp [embed] at hk
    | or b subs => simp [embed] at hk
    | and b subs =>
      simp only [embed] at hk
      injection hk with _ hk
      cases subs with
      | nil => simp [embedL] at hk
      | cons k1 ks =>
        simp only [embedL, List.cons.injEq] at hk
        exact embed_ne_ext k1 hk.1
  rcases h with ⟨_, h, _⟩ | ⟨_, h⟩
  · exact (hbare k h.symm).elim
  · generalize ht : (Tree.and false [.leaf (Leaf.ext e), .leaf (Leaf.ext e)] : Stmt E) = t at h
    cases h with
    | bare k => exact (hbare k ht.symm).elim
    | rep s v => simp at ht
    | ext s v t hc hv => simp at ht
    | any => simp at ht
    | all b subs v vi Ss ks _ hS hk hvi h =>
      injection ht with hb ht
      subst hb; subst ht
      match ks, hk, Ss, hS with
      | [k1, k2], _, [S1, S2], _ =>
        exact ⟨k1, k2, _, _, rfl, digested_ext (h 0 _ _ _ rfl rfl rfl), digested_ext (h 1 _ _ _ rfl rfl rfl)⟩

/-- Such responses are refused. -/
theorem twice_refused {e : Ext E} {env : Env E} {msg : String} {nizk : NIZK E} {σ : Store} {z : Sec} {q : Nat}
    (hb : Leads e.spec z q) {x y : Val E} (hxy : x ≠ y) {l1 r1 l2 r2 : List (Val E)}
    (hr : nizk.responses = .list [.list (.list (x :: l1) :: r1), .list (.list (y :: l2) :: r2)]) (b : Bool) :
    verify env σ (.and false [.leaf (.ext e), .leaf (.ext e)] : Stmt E) nizk msg ≠ .ok b := by
  intro h
  obtain ⟨S, k, _, _, _, _, hd, _⟩ := (verify_iff env σ _ nizk msg b).mp h
  obtain ⟨k1, k2, u1, u2, rfl, c1, c2⟩ := digested_pair hd
  obtain ⟨s1, rs1, rfl, ⟨m1, hv1⟩, _⟩ := hb _ _ _ c1
  obtain ⟨s2, rs2, rfl, ⟨m2, hv2⟩, _⟩ := hb _ _ _ c2
  refine Props.C21_never_accepts env σ _ nizk msg S _ hd z z x y ?_ ?_ rfl hxy b h
  · rw [hr]
    exact .all _ _ _ _ 0 _ _ _ rfl rfl (.all _ _ _ _ 0 _ _ _ rfl rfl (.rep _ _ 0 _ _ (by rw [hv1]; rfl) rfl))
  · rw [hr]
    exact .all _ _ _ _ 1 _ _ _ rfl rfl (.all _ _ _ _ 0 _ _ _ rfl rfl (.rep _ _ 0 _ _ (by rw [hv2]; rfl) rfl))

theorem responses_differ {a1 a2 c k : Int} {q : Nat} (h : ¬ (q : Int) ∣ c * (a1 - a2)) :
    (a1 * c + k) % (q : Int) ≠ (a2 * c + k) % (q : Int) := by
  intro e
  apply h
  have h1 := Int.emod_eq_emod_iff_emod_sub_eq_zero.mp e
  have h2 := Int.dvd_of_emod_eq_zero h1
  have : c * (a1 - a2) = a1 * c + k - (a2 * c + k) := by ring
  rw [this]; exact h2

end Twice
end Zksk
