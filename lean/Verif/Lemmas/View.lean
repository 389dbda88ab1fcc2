import Verif.Lemmas.Monad
import Verif.Lemmas.Ids
import Verif.SpecStmt

/-!
The verification content of a statement: `core` strips a statement to a tree of bare
representations, `skel` to the shape that is hashed.  Laws are proved for trees once and for all
from laws of the leaves.
-/

set_option linter.unusedSectionVars false

namespace Zksk

open Spec

variable {E : Type} [AddCommGroup E] [DecidableEq E]

/-! ### `PId` = skeleton + identifiers -/

namespace PId

mutual
theorem ids_length : ∀ (a b : PId E), a.skel = b.skel → a.ids.length = b.ids.length
  | .dlrep bs ids lhs, b, h => by
    cases b with
    | dlrep bs' ids' lhs' => simp only [skel, Skel.rep.injEq] at h; exact h.2.2
    | comp cls subs => simp only [skel] at h; split at h <;> cases h
    | ext cls v id => simp only [skel] at h; cases h
  | .comp cls subs, b, h => by
    cases b with
    | dlrep bs' ids' lhs' => simp only [skel] at h; split at h <;> cases h
    | comp cls' subs' =>
      simp only [skel] at h
      simp only [ids]
      apply idsL_length
      split at h <;> split at h <;> first | cases h | (injection h)
    | ext cls v id => simp only [skel] at h; split at h <;> cases h
  | .ext cls v id, b, h => by
    cases b with
    | dlrep bs' ids' lhs' => simp only [skel] at h; cases h
    | comp cls subs => simp only [skel] at h; split at h <;> cases h
    | ext cls' v' id' =>
      simp only [skel, Skel.ext.injEq] at h
      simp only [ids]
      exact ids_length id id' h.2.2
theorem idsL_length : ∀ (a b : List (PId E)), skelL a = skelL b →
    (idsL a).length = (idsL b).length
  | [], b, h => by
    cases b with
    | nil => rfl
    | cons b bs => simp [skelL] at h
  | a :: as, b, h => by
    cases b with
    | nil => simp [skelL] at h
    | cons b bs =>
      simp only [skelL, List.cons.injEq] at h
      simp only [idsL, List.length_append, ids_length a b h.1, idsL_length as bs h.2]
end

mutual
theorem ext_of : ∀ (a b : PId E), a.WF → b.WF → a.skel = b.skel → a.ids = b.ids → a = b
  | .dlrep bs ids lhs, b, _, _, h, hi => by
    cases b with
    | dlrep bs' ids' lhs' =>
      simp only [skel, Skel.rep.injEq] at h
      simp only [PId.ids] at hi
      rw [h.1, h.2.1, hi]
    | comp cls subs => simp only [skel] at h; split at h <;> cases h
    | ext cls v id => simp only [skel] at h; cases h
  | .comp cls subs, b, ha, hb, h, hi => by
    cases b with
    | dlrep bs' ids' lhs' => simp only [skel] at h; split at h <;> cases h
    | comp cls' subs' =>
      simp only [WF] at ha hb
      have hc : cls = cls' ∧ skelL subs = skelL subs' := by
        simp only [skel] at h
        rcases ha.1 with ha | ha <;> rcases hb.1 with hb | hb <;> subst ha <;> subst hb <;>
          simp at h <;> simp [h]
      rw [hc.1, extL_of subs subs' ha.2 hb.2 hc.2 (by simpa [ids] using hi)]
    | ext cls v id => simp only [skel] at h; split at h <;> cases h
  | .ext cls v id, b, ha, hb, h, hi => by
    cases b with
    | dlrep bs' ids' lhs' => simp only [skel] at h; cases h
    | comp cls subs => simp only [skel] at h; split at h <;> cases h
    | ext cls' v' id' =>
      simp only [skel, Skel.ext.injEq] at h
      simp only [WF] at ha hb
      rw [h.1, h.2.1, ext_of id id' ha hb h.2.2 (by simpa [ids] using hi)]
theorem extL_of : ∀ (a b : List (PId E)), WFL a → WFL b → skelL a = skelL b →
    idsL a = idsL b → a = b
  | [], b, _, _, h, _ => by
    cases b with
    | nil => rfl
    | cons b bs => simp [skelL] at h
  | a :: as, b, ha, hb, h, hi => by
    cases b with
    | nil => simp [skelL] at h
    | cons b bs =>
      simp only [skelL, List.cons.injEq] at h
      simp only [idsL] at hi
      simp only [WFL] at ha hb
      have := List.append_inj hi (ids_length a b h.1)
      rw [ext_of a b ha.1 hb.1 h.1 this.1, extL_of as bs ha.2 hb.2 h.2 this.2]
end

end PId

/-- Strip everything the verification equations do not depend on. -/
def DLRep.norm (s : DLRep E) : DLRep E := { s with secretValues := [], simulated := false }

abbrev coreSkel (t : Core E) : Skel E := Spec.shape t
abbrev coreSkelL (ts : List (Core E)) : List (Skel E) := Spec.shapeL ts

mutual
/-- Forget which parts of a statement come from extended statements. -/
def eraseExt : Skel E → Skel E
  | .rep lhs bs n => .rep lhs bs n
  | .all subs => .all (eraseExtL subs)
  | .any subs => .any (eraseExtL subs)
  | .ext _ _ k => eraseExt k
def eraseExtL : List (Skel E) → List (Skel E)
  | [] => []
  | k :: ks => eraseExt k :: eraseExtL ks
end

/-- Views of a leaf and the laws tying them to the operations. -/
class StmtView (E : outParam Type) (L : Type) [AddCommGroup E] [DecidableEq E]
    [StmtOps E L] where
  core : L → Option (Core E)
  skel : L → Option (Skel E)
  /-- the verifier attached to the statement is up to date -/
  ready : L → Prop
  core_skel : ∀ l, (core l).isSome = (skel l).isSome
  core_erase : ∀ l t k, core l = some t → skel l = some k → coreSkel t = eraseExt k
  core_vars : ∀ l t, core l = some t → StmtOps.secretVars l = Tree.secretVars t
  core_bases : ∀ l t, core l = some t → StmtOps.bases l = Tree.bases t
  core_recompute : ∀ l t c r, core l = some t → StmtOps.recompute l c r = Tree.recompute t c r
  core_consistency : ∀ l t σ r d, core l = some t → ready l →
    StmtOps.consistency σ l r d = Tree.consistency σ t r d
  vars_some : ∀ l, (core l).isSome → ∃ vs, StmtOps.secretVars l = .ok vs
  proofId_ok : ∀ σ m l id, StmtOps.proofId σ m l = .ok id →
    ∃ k vs is, skel l = some k ∧ StmtOps.secretVars l = .ok vs ∧ DLRep.idsOf σ m vs = .ok is ∧
      id.skel = k ∧ id.ids = is ∧ id.WF
  proofId_some : ∀ σ m l k vs is, skel l = some k → StmtOps.secretVars l = .ok vs →
    DLRep.idsOf σ m vs = .ok is → ∃ id, StmtOps.proofId σ m l = .ok id
  skel_setSim : ∀ b l, skel (StmtOps.setSimulated b l) = skel l
  core_setSim : ∀ b l, core (StmtOps.setSimulated b l) = core l

theorem idsOf_append {σ : Store} {m : IdMap} : ∀ {vs ws : List Sec},
    DLRep.idsOf σ m (vs ++ ws) = (do
      let a ← DLRep.idsOf σ m vs
      let b ← DLRep.idsOf σ m ws
      .ok (a ++ b))
  | [], ws => by
    simp only [List.nil_append, DLRep.idsOf, bind_ok]
    cases DLRep.idsOf σ m ws <;> rfl
  | v :: vs, ws => by
    simp only [List.cons_append, DLRep.idsOf]
    rw [idsOf_append (vs := vs)]
    cases IdMap.get m (σ.name v) with
    | error e => rfl
    | ok i =>
      simp only [bind_ok]
      cases DLRep.idsOf σ m vs with
      | error e => rfl
      | ok is =>
        simp only [bind_ok]
        cases DLRep.idsOf σ m ws <;> rfl

theorem idsOf_append_ok {σ : Store} {m : IdMap} {vs ws : List Sec} {is : List Nat} :
    DLRep.idsOf σ m (vs ++ ws) = .ok is ↔
      ∃ a b, DLRep.idsOf σ m vs = .ok a ∧ DLRep.idsOf σ m ws = .ok b ∧ is = a ++ b := by
  rw [idsOf_append]
  constructor
  · intro h
    obtain ⟨a, ha, h⟩ := bind_ok_iff.mp h
    obtain ⟨b, hb, h⟩ := bind_ok_iff.mp h
    exact ⟨a, b, ha, hb, (Except.ok.inj h).symm⟩
  · rintro ⟨a, b, ha, hb, rfl⟩
    rw [ha, hb]; rfl

namespace Tree
variable {L : Type} [StmtOps E L] [StmtView E L]

mutual
def core : Tree L → Option (Core E)
  | .leaf l => StmtView.core l
  | .and _ subs => (coreL subs).map (.and false)
  | .or _ subs => (coreL subs).map (.or false)
def coreL : List (Tree L) → Option (List (Core E))
  | [] => some []
  | t :: ts => (core t).bind fun a => (coreL ts).map (a :: ·)
end

mutual
def skel : Tree L → Option (Skel E)
  | .leaf l => StmtView.skel l
  | .and _ subs => (skelL subs).map .all
  | .or _ subs => (skelL subs).map .any
def skelL : List (Tree L) → Option (List (Skel E))
  | [] => some []
  | t :: ts => (skel t).bind fun a => (skelL ts).map (a :: ·)
end

mutual
def Ready : Tree L → Prop
  | .leaf l => StmtView.ready l
  | .and _ subs => ReadyL subs
  | .or _ subs => ReadyL subs
def ReadyL : List (Tree L) → Prop
  | [] => True
  | t :: ts => Ready t ∧ ReadyL ts
end

theorem coreL_cons {t : Tree L} {ts : List (Tree L)} {cs : List (Core E)} :
    coreL (t :: ts) = some cs ↔ ∃ a as, core t = some a ∧ coreL ts = some as ∧ cs = a :: as := by
  simp only [coreL, Option.bind_eq_some_iff, Option.map_eq_some_iff]
  constructor
  · rintro ⟨a, ha, as, has, rfl⟩; exact ⟨a, as, ha, has, rfl⟩
  · rintro ⟨a, as, ha, has, rfl⟩; exact ⟨a, ha, as, has, rfl⟩

theorem skelL_cons {t : Tree L} {ts : List (Tree L)} {cs : List (Skel E)} :
    skelL (t :: ts) = some cs ↔ ∃ a as, skel t = some a ∧ skelL ts = some as ∧ cs = a :: as := by
  simp only [skelL, Option.bind_eq_some_iff, Option.map_eq_some_iff]
  constructor
  · rintro ⟨a, ha, as, has, rfl⟩; exact ⟨a, as, ha, has, rfl⟩
  · rintro ⟨a, as, ha, has, rfl⟩; exact ⟨a, ha, as, has, rfl⟩

mutual
theorem core_vars : ∀ (t : Tree L) (c : Core E), core t = some c → secretVars t = secretVars c
  | .leaf l, c, h => StmtView.core_vars l c h
  | .and s subs, c, h => by
    simp only [core, Option.map_eq_some_iff] at h
    obtain ⟨cs, hcs, rfl⟩ := h
    simp only [secretVars]
    exact core_varsL subs cs hcs
  | .or s subs, c, h => by
    simp only [core, Option.map_eq_some_iff] at h
    obtain ⟨cs, hcs, rfl⟩ := h
    simp only [secretVars]
    exact core_varsL subs cs hcs
theorem core_varsL : ∀ (ts : List (Tree L)) (cs : List (Core E)), coreL ts = some cs →
    secretVarsL ts = secretVarsL cs
  | [], cs, h => by
    simp only [coreL, Option.some.injEq] at h; subst h; simp [secretVarsL]
  | t :: ts, cs, h => by
    obtain ⟨a, as, ha, has, rfl⟩ := coreL_cons.mp h
    simp only [secretVarsL, core_vars t a ha, core_varsL ts as has]
end

mutual
theorem core_bases : ∀ (t : Tree L) (c : Core E), core t = some c → bases t = bases c
  | .leaf l, c, h => StmtView.core_bases l c h
  | .and s subs, c, h => by
    simp only [core, Option.map_eq_some_iff] at h
    obtain ⟨cs, hcs, rfl⟩ := h
    simp only [bases]
    exact core_basesL subs cs hcs
  | .or s subs, c, h => by
    simp only [core, Option.map_eq_some_iff] at h
    obtain ⟨cs, hcs, rfl⟩ := h
    simp only [bases]
    exact core_basesL subs cs hcs
theorem core_basesL : ∀ (ts : List (Tree L)) (cs : List (Core E)), coreL ts = some cs →
    basesL ts = basesL cs
  | [], cs, h => by
    simp only [coreL, Option.some.injEq] at h; subst h; simp [basesL]
  | t :: ts, cs, h => by
    obtain ⟨a, as, ha, has, rfl⟩ := coreL_cons.mp h
    simp only [basesL, core_bases t a ha, core_basesL ts as has]
end

mutual
theorem core_recompute : ∀ (t : Tree L) (k : Core E) (c : Int) (r : Val E), core t = some k →
    recompute t c r = recompute k c r
  | .leaf l, k, c, r, h => StmtView.core_recompute l k c r h
  | .and s subs, k, c, r, h => by
    simp only [core, Option.map_eq_some_iff] at h
    obtain ⟨cs, hcs, rfl⟩ := h
    simp only [recompute, core_recomputeAnd subs cs 0 c r hcs]
  | .or s subs, k, c, r, h => by
    simp only [core, Option.map_eq_some_iff] at h
    obtain ⟨cs, hcs, rfl⟩ := h
    simp only [recompute, core_recomputeOr subs cs 0 _ _ hcs]
theorem core_recomputeAnd : ∀ (ts : List (Tree L)) (ks : List (Core E)) (i : Nat) (c : Int)
    (r : Val E), coreL ts = some ks → recomputeAnd ts i c r = recomputeAnd ks i c r
  | [], ks, i, c, r, h => by
    simp only [coreL, Option.some.injEq] at h; subst h; simp [recomputeAnd]
  | t :: ts, ks, i, c, r, h => by
    obtain ⟨a, as, ha, has, rfl⟩ := coreL_cons.mp h
    simp only [recomputeAnd, core_recompute t a _ _ ha, core_recomputeAnd ts as _ _ _ has]
theorem core_recomputeOr : ∀ (ts : List (Tree L)) (ks : List (Core E)) (i : Nat) (c : List Int)
    (r : Val E), coreL ts = some ks → recomputeOr ts i c r = recomputeOr ks i c r
  | [], ks, i, c, r, h => by
    simp only [coreL, Option.some.injEq] at h; subst h; simp [recomputeOr]
  | t :: ts, ks, i, c, r, h => by
    obtain ⟨a, as, ha, has, rfl⟩ := coreL_cons.mp h
    simp only [recomputeOr, core_recompute t a _ _ ha, core_recomputeOr ts as _ _ _ has]
end

mutual
theorem core_consistency : ∀ (t : Tree L) (k : Core E) (σ : Store) (r : Val E) (d : Dict (Val E)),
    core t = some k → Ready t → consistency σ t r d = consistency σ k r d
  | .leaf l, k, σ, r, d, h, hr => StmtView.core_consistency l k σ r d h hr
  | .and s subs, k, σ, r, d, h, hr => by
    simp only [core, Option.map_eq_some_iff] at h
    obtain ⟨cs, hcs, rfl⟩ := h
    simp only [consistency, core_consistencyAnd subs cs σ 0 r d hcs hr]
  | .or s subs, k, σ, r, d, h, hr => by
    simp only [core, Option.map_eq_some_iff] at h
    obtain ⟨cs, hcs, rfl⟩ := h
    simp only [consistency, core_consistencyOr subs cs σ 0 r hcs hr]
theorem core_consistencyAnd : ∀ (ts : List (Tree L)) (ks : List (Core E)) (σ : Store) (i : Nat)
    (r : Val E) (d : Dict (Val E)), coreL ts = some ks → ReadyL ts →
    consistencyAnd σ ts i r d = consistencyAnd σ ks i r d
  | [], ks, σ, i, r, d, h, _ => by
    simp only [coreL, Option.some.injEq] at h; subst h; simp [consistencyAnd]
  | t :: ts, ks, σ, i, r, d, h, hr => by
    obtain ⟨a, as, ha, has, rfl⟩ := coreL_cons.mp h
    simp only [consistencyAnd]
    congr 1; funext ri
    rw [core_consistency t a σ ri d ha hr.1]
    congr 1; funext x
    rw [core_consistencyAnd ts as σ (i + 1) r x.2 has hr.2]
theorem core_consistencyOr : ∀ (ts : List (Tree L)) (ks : List (Core E)) (σ : Store) (i : Nat)
    (r : Val E), coreL ts = some ks → ReadyL ts →
    consistencyOr σ ts i r = consistencyOr σ ks i r
  | [], ks, σ, i, r, h, _ => by
    simp only [coreL, Option.some.injEq] at h; subst h; simp [consistencyOr]
  | t :: ts, ks, σ, i, r, h, hr => by
    obtain ⟨a, as, ha, has, rfl⟩ := coreL_cons.mp h
    simp only [consistencyOr]
    congr 1; funext r1
    congr 1; funext ri
    rw [core_consistency t a σ ri [] ha hr.1]
    congr 1; funext x
    rw [core_consistencyOr ts as σ (i + 1) r has hr.2]
end

mutual
theorem core_skel : ∀ (t : Tree L), (core t).isSome = (skel t).isSome
  | .leaf l => StmtView.core_skel l
  | .and s subs => by
    simp only [core, skel, Option.isSome_map]; exact core_skelL subs
  | .or s subs => by
    simp only [core, skel, Option.isSome_map]; exact core_skelL subs
theorem core_skelL : ∀ (ts : List (Tree L)), (coreL ts).isSome = (skelL ts).isSome
  | [] => rfl
  | t :: ts => by
    have h1 := core_skel t
    have h2 := core_skelL ts
    simp only [coreL, skelL]
    cases h : core t <;> cases h' : skel t <;> simp_all
end

mutual
theorem core_erase : ∀ (t : Tree L) (c : Core E) (k : Skel E), core t = some c → skel t = some k →
    coreSkel c = eraseExt k
  | .leaf l, c, k, h, hk => StmtView.core_erase l c k h hk
  | .and s subs, c, k, h, hk => by
    simp only [core, skel, Option.map_eq_some_iff] at h hk
    obtain ⟨cs, hcs, rfl⟩ := h
    obtain ⟨ks, hks, rfl⟩ := hk
    simp only [shape, eraseExt, core_eraseL subs cs ks hcs hks]
  | .or s subs, c, k, h, hk => by
    simp only [core, skel, Option.map_eq_some_iff] at h hk
    obtain ⟨cs, hcs, rfl⟩ := h
    obtain ⟨ks, hks, rfl⟩ := hk
    simp only [shape, eraseExt, core_eraseL subs cs ks hcs hks]
theorem core_eraseL : ∀ (ts : List (Tree L)) (cs : List (Core E)) (ks : List (Skel E)),
    coreL ts = some cs → skelL ts = some ks → coreSkelL cs = eraseExtL ks
  | [], cs, ks, h, hk => by
    simp only [coreL, skelL, Option.some.injEq] at h hk; subst h; subst hk
    simp [shapeL, eraseExtL]
  | t :: ts, cs, ks, h, hk => by
    obtain ⟨a, as, ha, has, rfl⟩ := coreL_cons.mp h
    obtain ⟨b, bs, hb, hbs, rfl⟩ := skelL_cons.mp hk
    simp only [shapeL, eraseExtL, core_erase t a b ha hb, core_eraseL ts as bs has hbs]
end

mutual
theorem vars_some : ∀ (t : Tree L), (core t).isSome → ∃ vs, secretVars t = .ok vs
  | .leaf l, h => StmtView.vars_some l h
  | .and s subs, h => by
    simp only [core, Option.isSome_map] at h
    simp only [secretVars]; exact vars_someL subs h
  | .or s subs, h => by
    simp only [core, Option.isSome_map] at h
    simp only [secretVars]; exact vars_someL subs h
theorem vars_someL : ∀ (ts : List (Tree L)), (coreL ts).isSome → ∃ vs, secretVarsL ts = .ok vs
  | [], _ => ⟨[], by simp [secretVarsL]⟩
  | t :: ts, h => by
    obtain ⟨cs, hcs⟩ := Option.isSome_iff_exists.mp h
    obtain ⟨a, as, ha, has, rfl⟩ := coreL_cons.mp hcs
    obtain ⟨v, hv⟩ := vars_some t (by simp [ha])
    obtain ⟨vs, hvs⟩ := vars_someL ts (by simp [has])
    exact ⟨v ++ vs, by simp [secretVarsL, hv, hvs, bind_ok]⟩
end

mutual
theorem proofIdWith_ok (σ : Store) (m : IdMap) : ∀ (t : Tree L) (id : PId E),
    proofIdWith σ m t = .ok id →
    ∃ k vs is, skel t = some k ∧ secretVars t = .ok vs ∧ DLRep.idsOf σ m vs = .ok is ∧
      id.skel = k ∧ id.ids = is ∧ id.WF
  | .leaf l, id, h => StmtView.proofId_ok σ m l id h
  | .and s subs, id, h => by
    simp only [proofIdWith] at h
    obtain ⟨l, hl, h⟩ := bind_ok_iff.mp h
    injection h with h; subst h
    obtain ⟨k, vs, is, h1, h2, h3, h4, h5, h6⟩ := proofIdWithL_ok σ m subs l hl
    refine ⟨.all k, vs, is, by simp [skel, h1], by simpa [secretVars] using h2, h3, ?_, ?_, ?_⟩
    · simp [PId.skel, h4]
    · simp [PId.ids, h5]
    · simp [PId.WF, h6]
  | .or s subs, id, h => by
    simp only [proofIdWith] at h
    obtain ⟨l, hl, h⟩ := bind_ok_iff.mp h
    injection h with h; subst h
    obtain ⟨k, vs, is, h1, h2, h3, h4, h5, h6⟩ := proofIdWithL_ok σ m subs l hl
    refine ⟨.any k, vs, is, by simp [skel, h1], by simpa [secretVars] using h2, h3, ?_, ?_, ?_⟩
    · simp [PId.skel, h4]
    · simp [PId.ids, h5]
    · simp [PId.WF, h6]
theorem proofIdWithL_ok (σ : Store) (m : IdMap) : ∀ (ts : List (Tree L)) (ids : List (PId E)),
    proofIdWithL σ m ts = .ok ids →
    ∃ k vs is, skelL ts = some k ∧ secretVarsL ts = .ok vs ∧ DLRep.idsOf σ m vs = .ok is ∧
      PId.skelL ids = k ∧ PId.idsL ids = is ∧ PId.WFL ids
  | [], ids, h => by
    simp only [proofIdWithL, Except.ok.injEq] at h; subst h
    exact ⟨[], [], [], by simp [skelL], by simp [secretVarsL], by simp [DLRep.idsOf],
      by simp [PId.skelL], by simp [PId.idsL], by simp [PId.WFL]⟩
  | t :: ts, ids, h => by
    simp only [proofIdWithL] at h
    obtain ⟨a, ha, h⟩ := bind_ok_iff.mp h
    obtain ⟨b, hb, h⟩ := bind_ok_iff.mp h
    injection h with h; subst h
    obtain ⟨k, vs, is, h1, h2, h3, h4, h5, h6⟩ := proofIdWith_ok σ m t a ha
    obtain ⟨k', vs', is', h1', h2', h3', h4', h5', h6'⟩ := proofIdWithL_ok σ m ts b hb
    refine ⟨k :: k', vs ++ vs', is ++ is', skelL_cons.mpr ⟨k, k', h1, h1', rfl⟩,
      by simp [secretVarsL, h2, h2', bind_ok], idsOf_append_ok.mpr ⟨is, is', h3, h3', rfl⟩, ?_, ?_, ?_⟩
    · simp [PId.skelL, h4, h4']
    · simp [PId.idsL, h5, h5']
    · simp [PId.WFL, h6, h6']
end

mutual
theorem proofIdWith_some (σ : Store) (m : IdMap) : ∀ (t : Tree L) k vs is,
    skel t = some k → secretVars t = .ok vs → DLRep.idsOf σ m vs = .ok is →
    ∃ id, proofIdWith σ m t = .ok id
  | .leaf l, k, vs, is, h1, h2, h3 => StmtView.proofId_some σ m l k vs is h1 h2 h3
  | .and s subs, k, vs, is, h1, h2, h3 => by
    simp only [skel, Option.map_eq_some_iff] at h1
    obtain ⟨ks, hks, _⟩ := h1
    obtain ⟨ids, hids⟩ := proofIdWithL_some σ m subs ks vs is hks (by simpa [secretVars] using h2) h3
    exact ⟨_, by simp only [proofIdWith, hids, bind_ok]; rfl⟩
  | .or s subs, k, vs, is, h1, h2, h3 => by
    simp only [skel, Option.map_eq_some_iff] at h1
    obtain ⟨ks, hks, _⟩ := h1
    obtain ⟨ids, hids⟩ := proofIdWithL_some σ m subs ks vs is hks (by simpa [secretVars] using h2) h3
    exact ⟨_, by simp only [proofIdWith, hids, bind_ok]; rfl⟩
theorem proofIdWithL_some (σ : Store) (m : IdMap) : ∀ (ts : List (Tree L)) k vs is,
    skelL ts = some k → secretVarsL ts = .ok vs → DLRep.idsOf σ m vs = .ok is →
    ∃ ids, proofIdWithL σ m ts = .ok ids
  | [], k, vs, is, _, _, _ => ⟨[], by simp [proofIdWithL]⟩
  | t :: ts, k, vs, is, h1, h2, h3 => by
    obtain ⟨a, as, ha, has, rfl⟩ := skelL_cons.mp h1
    simp only [secretVarsL] at h2
    obtain ⟨v, hv, h2⟩ := bind_ok_iff.mp h2
    obtain ⟨w, hw, h2⟩ := bind_ok_iff.mp h2
    injection h2 with h2; subst h2
    obtain ⟨i, j, hi, hj, _⟩ := idsOf_append_ok.mp h3
    obtain ⟨x, hx⟩ := proofIdWith_some σ m t a v i ha hv hi
    obtain ⟨y, hy⟩ := proofIdWithL_some σ m ts as w j has hw hj
    exact ⟨x :: y, by simp only [proofIdWithL, hx, hy, bind_ok]⟩
end

end Tree

/-! ### Instances -/

theorem Tree.secretVars_leaf (s : DLRep E) :
    Tree.secretVars (.leaf s : Core E) = .ok s.secretVars := by
  simp only [Tree.secretVars, StmtOps.secretVars]

instance : StmtView E (DLRep E) where
  core s := some (.leaf s.norm)
  skel s := some (.rep s.lhs s.bases s.secretVars.length)
  ready _ := True
  core_skel _ := rfl
  core_erase l t k h hk := by
    simp only [Option.some.injEq] at h hk; subst h; subst hk
    simp [shape, eraseExt, DLRep.norm]
  core_vars l t h := by
    simp only [Option.some.injEq] at h; subst h
    simp [Tree.secretVars, StmtOps.secretVars, DLRep.norm]
  core_bases l t h := by
    simp only [Option.some.injEq] at h; subst h
    simp [Tree.bases, StmtOps.bases, DLRep.norm]
  core_recompute l t c r h := by
    simp only [Option.some.injEq] at h; subst h
    simp [Tree.recompute, StmtOps.recompute, DLRep.norm, DLRep.recompute]
  core_consistency l t σ r d h _ := by
    simp only [Option.some.injEq] at h; subst h
    simp [Tree.consistency, StmtOps.consistency, DLRep.norm]
  vars_some l _ := ⟨l.secretVars, rfl⟩
  proofId_ok σ m l id h := by
    simp only [StmtOps.proofId, DLRep.proofId] at h
    obtain ⟨is, his, h⟩ := bind_ok_iff.mp h
    injection h with h; subst h
    refine ⟨_, l.secretVars, is, rfl, rfl, his, ?_, rfl, trivial⟩
    have : ∀ (vs : List Sec) (is : List Nat), DLRep.idsOf σ m vs = .ok is → is.length = vs.length := by
      intro vs
      induction vs with
      | nil => intro is h; simp only [DLRep.idsOf, Except.ok.injEq] at h; subst h; rfl
      | cons v vs ih =>
        intro is h
        simp only [DLRep.idsOf] at h
        obtain ⟨i, _, h⟩ := bind_ok_iff.mp h
        obtain ⟨js, hjs, h⟩ := bind_ok_iff.mp h
        injection h with h; subst h
        simp [ih js hjs]
    simp [PId.skel, this _ _ his]
  proofId_some σ m l k vs is h1 h2 h3 := by
    simp only [StmtOps.secretVars, Except.ok.injEq] at h2
    subst h2
    exact ⟨_, by simp only [StmtOps.proofId, DLRep.proofId, h3, bind_ok]; rfl⟩
  skel_setSim b l := rfl
  core_setSim b l := rfl

instance : StmtView E (Ext E) where
  core s := s.constructed.bind Tree.core
  skel s := s.constructed.bind fun t => (Tree.skel t).map (.ext s.spec.cls s.precommitment)
  ready s := ∃ v, s.verifier = some v ∧ ∃ c, s.constructed = some c ∧ Tree.core v = Tree.core c ∧
    Tree.Ready v
  core_skel s := by
    cases h : s.constructed with
    | none => rfl
    | some t => simp [Tree.core_skel t]
  core_erase s t k h hk := by
    simp only [Option.bind_eq_some_iff, Option.map_eq_some_iff] at h hk
    obtain ⟨c, hc, h⟩ := h
    obtain ⟨c', hc', k', hk', rfl⟩ := hk
    rw [hc] at hc'; injection hc' with hc'; subst hc'
    simp only [eraseExt]
    exact Tree.core_erase c t k' h hk'
  core_vars s t h := by
    simp only [Option.bind_eq_some_iff] at h
    obtain ⟨c, hc, h⟩ := h
    simp only [StmtOps.secretVars, Ext.inner, hc, bind_ok]
    exact Tree.core_vars c t h
  core_bases s t h := by
    simp only [Option.bind_eq_some_iff] at h
    obtain ⟨c, hc, h⟩ := h
    simp only [StmtOps.bases, Ext.inner, hc, bind_ok]
    exact Tree.core_bases c t h
  core_recompute s t x r h := by
    simp only [Option.bind_eq_some_iff] at h
    obtain ⟨c, hc, h⟩ := h
    simp only [StmtOps.recompute, Ext.inner, hc, bind_ok]
    exact Tree.core_recompute c t x r h
  core_consistency s t σ r d h hr := by
    simp only [Option.bind_eq_some_iff] at h
    obtain ⟨c, hc, h⟩ := h
    obtain ⟨v, hv, c', hc', hcv, hrv⟩ := hr
    rw [hc] at hc'; injection hc' with hc'; subst hc'
    simp only [StmtOps.consistency, Ext.consistency, hv]
    exact Tree.core_consistency v t σ r d (by rw [hcv, h]) hrv
  vars_some s h := by
    cases hc : s.constructed with
    | none => simp [hc] at h
    | some t =>
      simp only [hc, Option.bind_some] at h
      obtain ⟨vs, hvs⟩ := Tree.vars_some t h
      exact ⟨vs, by simp only [StmtOps.secretVars, Ext.inner, hc, bind_ok]; exact hvs⟩
  proofId_ok σ m s id h := by
    simp only [StmtOps.proofId, Ext.proofId] at h
    cases hc : s.constructed with
    | none => simp [hc] at h
    | some t =>
      simp only [hc] at h
      obtain ⟨i, hi, h⟩ := bind_ok_iff.mp h
      injection h with h; subst h
      obtain ⟨k, vs, is, h1, h2, h3, h4, h5, h6⟩ := Tree.proofIdWith_ok σ m t i hi
      refine ⟨.ext s.spec.cls s.precommitment k, vs, is, by simp [h1], ?_, h3, ?_, ?_, ?_⟩
      · simp only [StmtOps.secretVars, Ext.inner, hc, bind_ok]; exact h2
      · simp [PId.skel, h4]
      · simp [PId.ids, h5]
      · simp [PId.WF, h6]
  proofId_some σ m s k vs is h1 h2 h3 := by
    cases hc : s.constructed with
    | none => simp [hc] at h1
    | some t =>
      simp only [hc, Option.bind_some, Option.map_eq_some_iff] at h1
      obtain ⟨k', hk', _⟩ := h1
      simp only [StmtOps.secretVars, Ext.inner, hc, bind_ok] at h2
      obtain ⟨id, hid⟩ := Tree.proofIdWith_some σ m t k' vs is hk' h2 h3
      exact ⟨_, by simp only [StmtOps.proofId, Ext.proofId, hc, hid, bind_ok]; rfl⟩
  skel_setSim b l := rfl
  core_setSim b l := rfl

instance : StmtView E (Leaf E) where
  core
    | .dlrep s => StmtView.core s
    | .ext s => StmtView.core s
  skel
    | .dlrep s => StmtView.skel s
    | .ext s => StmtView.skel s
  ready
    | .dlrep s => StmtView.ready s
    | .ext s => StmtView.ready s
  core_skel
    | .dlrep s => StmtView.core_skel s
    | .ext s => StmtView.core_skel s
  core_erase
    | .dlrep s => StmtView.core_erase s
    | .ext s => StmtView.core_erase s
  core_vars
    | .dlrep s => StmtView.core_vars s
    | .ext s => StmtView.core_vars s
  core_bases
    | .dlrep s => StmtView.core_bases s
    | .ext s => StmtView.core_bases s
  core_recompute
    | .dlrep s => StmtView.core_recompute s
    | .ext s => StmtView.core_recompute s
  core_consistency
    | .dlrep s => StmtView.core_consistency s
    | .ext s => StmtView.core_consistency s
  vars_some
    | .dlrep s => StmtView.vars_some s
    | .ext s => StmtView.vars_some s
  proofId_ok σ m
    | .dlrep s => StmtView.proofId_ok σ m s
    | .ext s => StmtView.proofId_ok σ m s
  proofId_some σ m
    | .dlrep s => StmtView.proofId_some σ m s
    | .ext s => StmtView.proofId_some σ m s
  skel_setSim b
    | .dlrep s => StmtView.skel_setSim b s
    | .ext s => StmtView.skel_setSim b s
  core_setSim b
    | .dlrep s => StmtView.core_setSim b s
    | .ext s => StmtView.core_setSim b s

end Zksk
