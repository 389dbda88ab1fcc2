import Verif.Lemmas.Transfer
import Verif.Lemmas.Arith
import Mathlib.Tactic.Abel

/-! The executable checks of the verifier are equivalent to their declarative specification. -/

set_option linter.unusedSectionVars false

namespace Zksk

open Spec

variable {E : Type} [AddCommGroup E] [DecidableEq E]

theorem asInt_ok {v : Val E} {n : Int} : v.asInt = .ok n ↔ v = .int n := by
  cases v <;> simp [Val.asInt]

theorem mapM_asInt : ∀ {l : List (Val E)} {ns : List Int},
    l.mapM Val.asInt = .ok ns ↔ l = ns.map .int
  | [], ns => by
    simp only [List.mapM_nil]
    constructor
    · intro h; injection h with h; subst h; rfl
    · intro h; cases ns with
      | nil => rfl
      | cons => simp at h
  | v :: l, ns => by
    simp only [List.mapM_cons]
    constructor
    · intro h
      obtain ⟨a, ha, h⟩ := bind_ok_iff.mp h
      obtain ⟨as, has, h⟩ := bind_ok_iff.mp h
      injection h with h; subst h
      rw [asInt_ok.mp ha, mapM_asInt.mp has]; rfl
    · intro h
      cases ns with
      | nil => simp at h
      | cons n ns =>
        simp only [List.map_cons, List.cons.injEq] at h
        rw [h.1, mapM_asInt.mpr h.2]; rfl

theorem asIntList_ok {v : Val E} {ns : List Int} :
    Tree.asIntList v = .ok ns ↔ v = .list (ns.map .int) := by
  cases v <;> simp [Tree.asIntList, mapM_asInt]

theorem residual_zero_iff {cs : List Int} {c : Int} :
    findResidualChallenge cs c challengeLength = 0 ↔ cs.sum % 2 ^ 128 = c % 2 ^ 128 := by
  rw [findResidual_eq, Int.neg_eq_zero, Int.emod_eq_emod_iff_emod_sub_eq_zero]; rfl

theorem wsumGo_ok : ∀ (acc : Pt E) (ws : List (Val E)) (ps : List (Pt E)) (q : Pt E),
    wsumGo acc ws ps = .ok q ↔ ∃ ns : List Int, ws.take ps.length = ns.map .int ∧
      (∀ b ∈ ps.take ns.length, b.grp = acc.grp) ∧
      q = ⟨acc.grp, acc.val + (List.zipWith (fun w b => w • b.val) ns ps).sum⟩
  | acc, [], ps, q => by
    simp only [wsumGo, List.take_nil]
    constructor
    · intro h; injection h with h; subst h
      exact ⟨[], rfl, by simp, by simp⟩
    · rintro ⟨ns, h1, _, rfl⟩
      cases ns with
      | nil => simp
      | cons => simp at h1
  | acc, w :: ws, [], q => by
    simp only [wsumGo, List.length_nil, List.take_zero]
    constructor
    · intro h; injection h with h; subst h
      exact ⟨[], rfl, by simp, by simp⟩
    · rintro ⟨ns, h1, _, rfl⟩
      cases ns with
      | nil => simp
      | cons => simp at h1
  | acc, w :: ws, p :: ps, q => by
    simp only [wsumGo, List.length_cons, List.take_succ_cons]
    constructor
    · intro h
      obtain ⟨n, hn, h⟩ := bind_ok_iff.mp h
      obtain ⟨acc', hacc, h⟩ := bind_ok_iff.mp h
      unfold Pt.add at hacc
      split at hacc
      · rename_i hg
        injection hacc with hacc; subst hacc
        obtain ⟨ns, h1, h2, h3⟩ := (wsumGo_ok _ ws ps q).mp h
        refine ⟨n :: ns, by rw [asInt_ok.mp hn, h1]; rfl, ?_, ?_⟩
        · intro b hb
          simp only [List.length_cons, List.take_succ_cons, List.mem_cons] at hb
          rcases hb with rfl | hb
          · exact hg.symm
          · exact h2 b hb
        · rw [h3]; simp [Pt.smul, add_assoc]
      · cases hacc
    · rintro ⟨ns, h1, h2, rfl⟩
      cases ns with
      | nil => simp at h1
      | cons n ns =>
        simp only [List.map_cons, List.cons.injEq] at h1
        have hg : p.grp = acc.grp := h2 p (by simp)
        rw [h1.1]
        simp only [Val.asInt, bind_ok]
        have hadd : acc.add (Pt.smul n p) = .ok ⟨acc.grp, acc.val + n • p.val⟩ := by
          simp [Pt.add, Pt.smul, hg]
        rw [hadd]
        simp only [bind_ok]
        rw [wsumGo_ok]
        exact ⟨ns, h1.2, fun b hb => h2 b (by simp [hb]), by simp [add_assoc]⟩

theorem recompute_leaf {s : DLRep E} {c : Int} {r com : Val E} :
    Tree.recompute (.leaf s : Core E) c r = .ok com ↔ Eqns (.leaf s) c r com := by
  simp only [Tree.recompute, StmtOps.recompute, DLRep.recompute]
  constructor
  · intro h
    obtain ⟨vs, hvs, h⟩ := bind_ok_iff.mp h
    obtain ⟨q, hq, h⟩ := bind_ok_iff.mp h
    obtain ⟨p, hp, h⟩ := bind_ok_iff.mp h
    injection h with h; subst h
    unfold Grp.wsum at hq
    split at hq
    · cases hq
    · rename_i hstr
      obtain ⟨ws, h1, h2, rfl⟩ := (wsumGo_ok _ _ _ _).mp hq
      simp only [Pt.add, Grp.inf, Pt.smul, if_true, Except.ok.injEq] at hp
      subst hp
      have := Eqns.rep s c r vs ws hvs (by simpa using hstr) h1 h2
      convert this using 3
      rw [zero_add, neg_smul, sub_eq_add_neg]
  · intro h
    cases h with
    | rep s c r vs ws hr hlen hws hgrp =>
      rw [hr]
      simp only [bind_ok]
      have hstr : ¬ (s.lhs.grp.strict && vs.length != s.bases.length) = true := by
        simpa using hlen
      have : Grp.wsum s.lhs.grp vs s.bases =
          .ok ⟨s.lhs.grp, 0 + (List.zipWith (fun w b => w • b.val) ws s.bases).sum⟩ := by
        unfold Grp.wsum
        rw [if_neg hstr]
        exact (wsumGo_ok _ _ _ _).mpr ⟨ws, hws, hgrp, rfl⟩
      rw [this]
      simp only [bind_ok, Pt.add, Pt.smul, if_true, zero_add, neg_smul, sub_eq_add_neg]

/-- Loop over conjuncts, spelled out. -/
theorem recomputeAnd_iff : ∀ (ts : List (Core E)) (i : Nat) (c : Int) (r : Val E)
    (coms : List (Val E)),
    Tree.recomputeAnd ts i c r = .ok coms ↔
      coms.length = ts.length ∧ ∃ ri : Nat → Val E, (∀ j, j < ts.length → r.index (i + j) = .ok (ri j)) ∧
        ∀ j t com, ts[j]? = some t → coms[j]? = some com → Tree.recompute t c (ri j) = .ok com
  | [], i, c, r, coms => by
    simp only [Tree.recomputeAnd, Except.ok.injEq, List.length_nil]
    constructor
    · rintro rfl; exact ⟨rfl, fun _ => .none, by simp, by simp⟩
    · rintro ⟨h, _⟩; exact (List.length_eq_zero_iff.mp h).symm
  | t :: ts, i, c, r, coms => by
    simp only [Tree.recomputeAnd]
    constructor
    · intro h
      obtain ⟨r0, hr0, h⟩ := bind_ok_iff.mp h
      obtain ⟨com, hcom, h⟩ := bind_ok_iff.mp h
      obtain ⟨cs, hcs, h⟩ := bind_ok_iff.mp h
      injection h with h; subst h
      obtain ⟨h1, ri, h2, h3⟩ := (recomputeAnd_iff ts (i + 1) c r cs).mp hcs
      refine ⟨by simp [h1], fun j => if j = 0 then r0 else ri (j - 1), ?_, ?_⟩
      · intro j hj
        cases j with
        | zero => simpa using hr0
        | succ j =>
          simp only [List.length_cons] at hj
          simp only [Nat.succ_ne_zero, if_false, Nat.add_sub_cancel]
          rw [← h2 j (by omega)]; congr 1; omega
      · intro j t' com' ht hc
        cases j with
        | zero => simp at ht hc; subst ht; subst hc; simpa using hcom
        | succ j =>
          simp at ht hc
          simp only [Nat.succ_ne_zero, if_false, Nat.add_sub_cancel]
          exact h3 j t' com' ht hc
    · rintro ⟨h1, ri, h2, h3⟩
      cases coms with
      | nil => simp at h1
      | cons com coms =>
        have e0 : r.index i = .ok (ri 0) := by simpa using h2 0 (by simp)
        have e1 : Tree.recompute t c (ri 0) = .ok com := h3 0 t com (by simp) (by simp)
        have e2 : Tree.recomputeAnd ts (i + 1) c r = .ok coms := by
          rw [recomputeAnd_iff]
          refine ⟨by simpa using h1, fun j => ri (j + 1), ?_, ?_⟩
          · intro j hj
            have := h2 (j + 1) (by simp; omega)
            rw [← this]; congr 1; omega
          · intro j t' com' ht hc
            exact h3 (j + 1) t' com' (by simpa using ht) (by simpa using hc)
        rw [e0]; simp only [bind_ok]; rw [e1]; simp only [bind_ok]; rw [e2]; rfl

theorem recomputeOr_iff : ∀ (ts : List (Core E)) (i : Nat) (cs : List Int) (r : Val E)
    (coms : List (Val E)),
    Tree.recomputeOr ts i cs r = .ok coms ↔
      coms.length = ts.length ∧ (ts ≠ [] → i + ts.length ≤ cs.length) ∧
      ∃ ri : Nat → Val E, (∀ j, j < ts.length → r.index (i + j) = .ok (ri j)) ∧
        ∀ j t com ci, ts[j]? = some t → coms[j]? = some com → cs[i + j]? = some ci →
          Tree.recompute t ci (ri j) = .ok com
  | [], i, cs, r, coms => by
    simp only [Tree.recomputeOr, Except.ok.injEq, List.length_nil]
    constructor
    · rintro rfl; exact ⟨rfl, by simp, fun _ => .none, by simp, by simp⟩
    · rintro ⟨h, _⟩; exact (List.length_eq_zero_iff.mp h).symm
  | t :: ts, i, cs, r, coms => by
    simp only [Tree.recomputeOr]
    constructor
    · intro h
      cases hci : cs[i]? with
      | none => rw [hci] at h; cases h
      | some c0 =>
        rw [hci] at h
        simp only [] at h
        obtain ⟨r0, hr0, h⟩ := bind_ok_iff.mp h
        obtain ⟨com, hcom, h⟩ := bind_ok_iff.mp h
        obtain ⟨cms, hcs, h⟩ := bind_ok_iff.mp h
        injection h with h; subst h
        obtain ⟨h1, h1', ri, h2, h3⟩ := (recomputeOr_iff ts (i + 1) cs r cms).mp hcs
        have hi := (List.getElem?_eq_some_iff.mp hci).1
        refine ⟨by simp [h1], ?_, fun j => if j = 0 then r0 else ri (j - 1), ?_, ?_⟩
        · intro _
          cases ts with
          | nil => simp; omega
          | cons a as => have := h1' (by simp); simp at this ⊢; omega
        · intro j hj
          cases j with
          | zero => simpa using hr0
          | succ j =>
            simp only [List.length_cons] at hj
            simp only [Nat.succ_ne_zero, if_false, Nat.add_sub_cancel]
            rw [← h2 j (by omega)]; congr 1; omega
        · intro j t' com' ci' ht hc hci'
          cases j with
          | zero =>
            simp at ht hc hci'; subst ht; subst hc
            rw [hci] at hci'; injection hci' with hci'; subst hci'
            simpa using hcom
          | succ j =>
            simp at ht hc
            simp only [Nat.succ_ne_zero, if_false, Nat.add_sub_cancel]
            exact h3 j t' com' ci' ht hc (by rw [← hci']; congr 1; omega)
    · rintro ⟨h1, h1', ri, h2, h3⟩
      cases coms with
      | nil => simp at h1
      | cons com coms =>
        have hle := h1' (by simp)
        simp only [List.length_cons] at hle
        have hi : i < cs.length := by omega
        have hci : cs[i]? = some cs[i] := List.getElem?_eq_getElem hi
        have e0 : r.index i = .ok (ri 0) := by simpa using h2 0 (by simp)
        have e1 : Tree.recompute t cs[i] (ri 0) = .ok com :=
          h3 0 t com cs[i] (by simp) (by simp) (by simpa using hci)
        have e2 : Tree.recomputeOr ts (i + 1) cs r = .ok coms := by
          rw [recomputeOr_iff]
          refine ⟨by simpa using h1, fun _ => by omega, fun j => ri (j + 1), ?_, ?_⟩
          · intro j hj
            have := h2 (j + 1) (by simp; omega)
            rw [← this]; congr 1; omega
          · intro j t' com' ci' ht hc hci'
            exact h3 (j + 1) t' com' ci' (by simpa using ht) (by simpa using hc)
              (by rw [← hci']; congr 1; omega)
        rw [hci]
        simp only []
        rw [e0]; simp only [bind_ok]; rw [e1]; simp only [bind_ok]; rw [e2]; rfl

/-- **Recomputation is the declarative equation system.** -/
theorem recompute_iff : ∀ (t : Core E) (c : Int) (r com : Val E),
    Tree.recompute t c r = .ok com ↔ Eqns t c r com := by
  intro t
  induction t using Tree.ind with
  | leaf s => intro c r com; exact recompute_leaf
  | and sim subs ih =>
    intro c r com
    simp only [Tree.recompute]
    constructor
    · intro h
      obtain ⟨coms, hc, h⟩ := bind_ok_iff.mp h
      injection h with h; subst h
      obtain ⟨h1, ri, h2, h3⟩ := (recomputeAnd_iff _ _ _ _ _).mp hc
      refine Eqns.all sim subs c r coms ri h1 (fun i hi => by simpa using h2 i hi) ?_
      intro i t com ht hcom
      exact (ih t (List.mem_of_getElem? ht) _ _ _).mp (h3 i t com ht hcom)
    · intro h
      cases h with
      | all sim subs c r coms ri hlen hri h =>
        have : Tree.recomputeAnd subs 0 c r = .ok coms := by
          rw [recomputeAnd_iff]
          refine ⟨hlen, ri, fun i hi => by simpa using hri i hi, ?_⟩
          intro i t com ht hcom
          exact (ih t (List.mem_of_getElem? ht) _ _ _).mpr (h i t com ht hcom)
        rw [this]; rfl
  | or sim subs ih =>
    intro c r com
    simp only [Tree.recompute]
    constructor
    · intro h
      obtain ⟨v0, hv0, h⟩ := bind_ok_iff.mp h
      obtain ⟨rs, hrs, h⟩ := bind_ok_iff.mp h
      obtain ⟨cs, hcs, h⟩ := bind_ok_iff.mp h
      rw [asIntList_ok] at hcs; rw [hcs] at hv0
      split at h
      · cases h
      · rename_i hres
        obtain ⟨coms, hc, h⟩ := bind_ok_iff.mp h
        injection h with h; subst h
        obtain ⟨h1, h1', ri, h2, h3⟩ := (recomputeOr_iff _ _ _ _ _).mp hc
        refine Eqns.any sim subs c r rs cs coms ri hv0 hrs ?_ h1 ?_ ?_ ?_
        · exact residual_zero_iff.mp (by simpa using hres)
        · cases subs with
          | nil => simp
          | cons a as => simpa using h1' (by simp)
        · exact fun i hi => by simpa using h2 i hi
        · intro i t com ci ht hcom hci
          exact (ih t (List.mem_of_getElem? ht) _ _ _).mp (h3 i t com ci ht hcom (by simpa using hci))
    · intro h
      cases h with
      | any sim subs c r rs cs coms ri hcs hrs hsum hlen hlen' hri h =>
        rw [hcs]; simp only [bind_ok]; rw [hrs]; simp only [bind_ok]
        rw [asIntList_ok.mpr rfl]; simp only [bind_ok]
        rw [residual_zero_iff.mpr hsum]
        simp only [ne_eq, not_true_eq_false, if_false]
        have : Tree.recomputeOr subs 0 cs rs = .ok coms := by
          rw [recomputeOr_iff]
          refine ⟨hlen, fun _ => by simpa using hlen', ri, fun i hi => by simpa using hri i hi, ?_⟩
          intro i t com ci ht hcom hci
          exact (ih t (List.mem_of_getElem? ht) _ _ _).mpr (h i t com ci ht hcom (by simpa using hci))
        rw [this]; rfl

/-! ### Consistency -/

/-- Every entry of the dictionary is the assigned response. -/
def Below (σ : Store) (ρ : Key → Val E) (d : Dict (Val E)) : Prop :=
  ∀ s v, Dict.get? σ d s = some v → v = ρ (σ.key s)

/-- Entries are never changed. -/
def Extends (σ : Store) (d d' : Dict (Val E)) : Prop :=
  ∀ s v, Dict.get? σ d s = some v → Dict.get? σ d' s = some v

theorem Extends.refl (σ : Store) (d : Dict (Val E)) : Extends σ d d := fun _ _ h => h

theorem Extends.trans {σ : Store} {d1 d2 d3 : Dict (Val E)} (h : Extends σ d1 d2)
    (h' : Extends σ d2 d3) : Extends σ d1 d3 := fun s v hv => h' s v (h s v hv)

theorem consistencyGo_true {σ : Store} {r : Val E} : ∀ (vs : List Sec) (i : Nat)
    (d d' : Dict (Val E)), DLRep.consistencyGo σ r vs i d = .ok (true, d') →
    Extends σ d d' ∧ ∀ j s, vs[j]? = some s → ∃ v, r.index (i + j) = .ok v ∧
      Dict.get? σ d' s = some v
  | [], i, d, d', h => by
    simp only [DLRep.consistencyGo, Except.ok.injEq, Prod.mk.injEq, true_and] at h
    subst h
    exact ⟨Extends.refl _ _, by simp⟩
  | v :: vs, i, d, d', h => by
    simp only [DLRep.consistencyGo] at h
    cases hg : Dict.get? σ d v with
    | none =>
      rw [hg] at h
      simp only [] at h
      obtain ⟨ri, hri, h⟩ := bind_ok_iff.mp h
      obtain ⟨h1, h2⟩ := consistencyGo_true vs (i + 1) _ d' h
      constructor
      · intro s x hx
        apply h1
        rw [Dict.get?_set]
        split
        · rename_i hk; rw [← Dict.get?_key hk, hg] at hx; cases hx
        · exact hx
      · intro j s hs
        cases j with
        | zero =>
          simp only [List.getElem?_cons_zero, Option.some.injEq] at hs; subst hs
          exact ⟨ri, by simpa using hri, h1 _ _ (by rw [Dict.get?_set, if_pos rfl])⟩
        | succ j =>
          obtain ⟨w, hw, hw'⟩ := h2 j s (by simpa using hs)
          exact ⟨w, by rw [← hw]; congr 1; omega, hw'⟩
    | some w =>
      rw [hg] at h
      simp only [] at h
      obtain ⟨ri, hri, h⟩ := bind_ok_iff.mp h
      split at h
      · simp at h
      · rename_i hne
        have hrw : ri = w := by simpa using hne
        obtain ⟨h1, h2⟩ := consistencyGo_true vs (i + 1) d d' h
        refine ⟨h1, ?_⟩
        intro j s hs
        cases j with
        | zero =>
          simp only [List.getElem?_cons_zero, Option.some.injEq] at hs; subst hs
          exact ⟨ri, by simpa using hri, h1 _ _ (by rw [hg, hrw])⟩
        | succ j =>
          obtain ⟨w, hw, hw'⟩ := h2 j s (by simpa using hs)
          exact ⟨w, by rw [← hw]; congr 1; omega, hw'⟩

theorem consistencyGo_of {σ : Store} {r : Val E} {ρ : Key → Val E} : ∀ (vs : List Sec) (i : Nat)
    (d : Dict (Val E)), Below σ ρ d →
    (∀ j s, vs[j]? = some s → r.index (i + j) = .ok (ρ (σ.key s))) →
    ∃ d', DLRep.consistencyGo σ r vs i d = .ok (true, d') ∧ Below σ ρ d'
  | [], i, d, hd, h => ⟨d, rfl, hd⟩
  | v :: vs, i, d, hd, h => by
    have h0 : r.index i = .ok (ρ (σ.key v)) := by simpa using h 0 v (by simp)
    have hrest : ∀ j s, vs[j]? = some s → r.index (i + 1 + j) = .ok (ρ (σ.key s)) := by
      intro j s hs
      rw [← h (j + 1) s (by simpa using hs)]; congr 1; omega
    simp only [DLRep.consistencyGo]
    cases hg : Dict.get? σ d v with
    | none =>
      simp only []
      rw [h0]; simp only [bind_ok]
      apply consistencyGo_of vs (i + 1) _ _ hrest
      intro s x hx
      rw [Dict.get?_set] at hx
      split at hx
      · rename_i hk; injection hx with hx; rw [← hx, hk]
      · exact hd s x hx
    | some w =>
      simp only []
      rw [h0]; simp only [bind_ok]
      have : w = ρ (σ.key v) := hd v w hg
      subst this
      simp only [ne_eq, not_true_eq_false, if_false]
      exact consistencyGo_of vs (i + 1) d hd hrest

theorem consistencyAnd_true {σ : Store} : ∀ (ts : List (Core E)) (i : Nat) (r : Val E)
    (d d' : Dict (Val E)), Tree.consistencyAnd σ ts i r d = .ok (true, d') →
    ∃ (ri : Nat → Val E) (ds : Nat → Dict (Val E)), ds 0 = d ∧ ds ts.length = d' ∧
      (∀ j, j < ts.length → r.index (i + j) = .ok (ri j)) ∧
      ∀ j t, ts[j]? = some t → Tree.consistency σ t (ri j) (ds j) = .ok (true, ds (j + 1))
  | [], i, r, d, d', h => by
    simp only [Tree.consistencyAnd, Except.ok.injEq, Prod.mk.injEq, true_and] at h
    exact ⟨fun _ => .none, fun _ => d, rfl, h, by simp, by simp⟩
  | t :: ts, i, r, d, d', h => by
    simp only [Tree.consistencyAnd] at h
    obtain ⟨r0, hr0, h⟩ := bind_ok_iff.mp h
    obtain ⟨⟨b, d1⟩, hb, h⟩ := bind_ok_iff.mp h
    simp only [] at h
    cases b with
    | false => simp at h
    | true =>
      simp only [if_true] at h
      obtain ⟨ri, ds, e0, e1, e2, e3⟩ := consistencyAnd_true ts (i + 1) r d1 d' h
      refine ⟨fun j => if j = 0 then r0 else ri (j - 1), fun j => if j = 0 then d else ds (j - 1),
        rfl, by simpa using e1, ?_, ?_⟩
      · intro j hj
        cases j with
        | zero => simpa using hr0
        | succ j =>
          simp only [List.length_cons] at hj
          simp only [Nat.succ_ne_zero, if_false, Nat.add_sub_cancel]
          rw [← e2 j (by omega)]; congr 1; omega
      · intro j t' ht
        cases j with
        | zero =>
          simp only [List.getElem?_cons_zero, Option.some.injEq] at ht; subst ht
          simpa [e0] using hb
        | succ j =>
          simpa using e3 j t' (by simpa using ht)

theorem consistencyOr_true {σ : Store} : ∀ (ts : List (Core E)) (i : Nat) (r : Val E),
    Tree.consistencyOr σ ts i r = .ok true ↔
    ∃ (rs : Val E) (ri : Nat → Val E) (ds : Nat → Dict (Val E)), (ts ≠ [] → r.index 1 = .ok rs) ∧
      (∀ j, j < ts.length → rs.index (i + j) = .ok (ri j)) ∧
      ∀ j t, ts[j]? = some t → Tree.consistency σ t (ri j) [] = .ok (true, ds j)
  | [], i, r => by
    simp only [Tree.consistencyOr, true_iff]
    exact ⟨.none, fun _ => .none, fun _ => [], by simp, by simp, by simp⟩
  | t :: ts, i, r => by
    simp only [Tree.consistencyOr]
    constructor
    · intro h
      obtain ⟨r1, hr1, h⟩ := bind_ok_iff.mp h
      obtain ⟨r0, hr0, h⟩ := bind_ok_iff.mp h
      obtain ⟨⟨b, d1⟩, hb, h⟩ := bind_ok_iff.mp h
      simp only [] at h
      cases b with
      | false => simp at h
      | true =>
        simp only [if_true] at h
        obtain ⟨rs, ri, ds, e1, e2, e3⟩ := (consistencyOr_true ts (i + 1) r).mp h
        have hrs : ts ≠ [] → rs = r1 := by
          intro hne; have := e1 hne; rw [hr1] at this; exact (Except.ok.inj this).symm
        refine ⟨r1, fun j => if j = 0 then r0 else ri (j - 1),
          fun j => if j = 0 then d1 else ds (j - 1), fun _ => hr1, ?_, ?_⟩
        · intro j hj
          cases j with
          | zero => simpa using hr0
          | succ j =>
            simp only [List.length_cons] at hj
            have hne : ts ≠ [] := by rintro rfl; simp at hj
            simp only [Nat.succ_ne_zero, if_false, Nat.add_sub_cancel]
            rw [← e2 j (by omega), hrs hne]; congr 1; omega
        · intro j t' ht
          cases j with
          | zero =>
            simp only [List.getElem?_cons_zero, Option.some.injEq] at ht; subst ht
            simpa using hb
          | succ j =>
            simpa using e3 j t' (by simpa using ht)
    · rintro ⟨rs, ri, ds, e1, e2, e3⟩
      rw [e1 (by simp)]; simp only [bind_ok]
      have e0 : rs.index i = .ok (ri 0) := by simpa using e2 0 (by simp)
      rw [e0]; simp only [bind_ok]
      rw [e3 0 t (by simp)]; simp only [bind_ok, if_true]
      rw [consistencyOr_true]
      refine ⟨rs, fun j => ri (j + 1), fun j => ds (j + 1), fun _ => e1 (by simp), ?_, ?_⟩
      · intro j hj
        rw [← e2 (j + 1) (by simp; omega)]; congr 1; omega
      · intro j t' ht
        exact e3 (j + 1) t' (by simpa using ht)

/-- A passed check gives an assignment: any one above the final dictionary. -/
theorem agree_of_consistency {σ : Store} : ∀ (t : Core E) (r : Val E) (d d' : Dict (Val E)),
    Tree.consistency σ t r d = .ok (true, d') →
    Extends σ d d' ∧ ∀ ρ : Key → Val E, Below σ ρ d' → Agree σ t r ρ := by
  intro t
  induction t using Tree.ind with
  | leaf s =>
    intro r d d' h
    simp only [Tree.consistency, StmtOps.consistency] at h
    obtain ⟨h1, h2⟩ := consistencyGo_true _ _ _ _ h
    refine ⟨h1, fun ρ hρ => Agree.rep s r ρ ?_⟩
    intro i x hx
    obtain ⟨v, hv, hv'⟩ := h2 i x hx
    rw [← hρ x v hv']; simpa using hv
  | and sim subs ih =>
    intro r d d' h
    simp only [Tree.consistency] at h
    obtain ⟨ri, ds, e0, e1, e2, e3⟩ := consistencyAnd_true _ _ _ _ _ h
    have hext : ∀ n m, n ≤ m → m ≤ subs.length → Extends σ (ds n) (ds m) := by
      intro n m hnm
      induction m with
      | zero => intro _; have : n = 0 := by omega
                subst this; exact Extends.refl _ _
      | succ m ihm =>
        intro hm
        by_cases hn : n = m + 1
        · subst hn; exact Extends.refl _ _
        · have hm' : m < subs.length := by omega
          have ht : subs[m]? = some subs[m] := List.getElem?_eq_getElem hm'
          exact (ihm (by omega) (by omega)).trans
            (ih _ (List.mem_of_getElem? ht) _ _ _ (e3 m _ ht)).1
    constructor
    · rw [← e0, ← e1]; exact hext 0 _ (by omega) (le_refl _)
    · intro ρ hρ
      refine Agree.all sim subs r ρ ri (fun i hi => by simpa using e2 i hi) ?_
      intro i t ht
      have hi := (List.getElem?_eq_some_iff.mp ht).1
      refine (ih _ (List.mem_of_getElem? ht) _ _ _ (e3 i t ht)).2 ρ ?_
      intro s v hv
      apply hρ
      rw [← e1]
      exact hext (i + 1) _ (by omega) (le_refl _) s v hv
  | or sim subs ih =>
    intro r d d' h
    simp only [Tree.consistency] at h
    obtain ⟨b, hb, h⟩ := bind_ok_iff.mp h
    simp only [Except.ok.injEq, Prod.mk.injEq] at h
    obtain ⟨rfl, rfl⟩ := h
    obtain ⟨rs, ri, ds, e1, e2, e3⟩ := (consistencyOr_true _ _ _).mp hb
    refine ⟨Extends.refl _ _, fun ρ _ => ?_⟩
    refine Agree.any sim subs r rs ρ ri
      (fun i k => ((ds i).find? (fun kv => decide (σ.key kv.1 = k))).elim .none Prod.snd) e1
      (fun i hi => by simpa using e2 i hi) ?_
    intro i t ht
    refine (ih _ (List.mem_of_getElem? ht) _ _ _ (e3 i t ht)).2 _ ?_
    intro s v hv
    generalize ds i = dd at hv
    induction dd with
    | nil => simp [Dict.get?] at hv
    | cons kv dd ihd =>
      simp only [Dict.get?] at hv
      split at hv
      · rename_i hk
        injection hv with hv
        simp [hk, hv]
      · rename_i hk
        simp only [List.find?_cons, hk, decide_false]
        exact ihd hv

/-- The value a dictionary assigns to a key. -/
def Dict.fn {α : Type} (σ : Store) (dflt : α) (d : Dict α) : Key → α :=
  fun k => (d.find? (fun kv => decide (σ.key kv.1 = k))).elim dflt Prod.snd

theorem Dict.get?_fn {α : Type} {σ : Store} {dflt : α} {d : Dict α} {s : Sec} {v : α}
    (h : Dict.get? σ d s = some v) : v = Dict.fn σ dflt d (σ.key s) := by
  unfold Dict.fn
  induction d with
  | nil => simp [Dict.get?] at h
  | cons kv dd ihd =>
    simp only [Dict.get?] at h
    split at h
    · rename_i hk
      injection h with h
      simp [hk, h]
    · rename_i hk
      simp only [List.find?_cons, hk, decide_false]
      exact ihd h

/-- Agreement implies that the check passes. -/
theorem consistency_of_agree {σ : Store} : ∀ (t : Core E) (r : Val E) (ρ : Key → Val E)
    (d : Dict (Val E)), Agree σ t r ρ → Below σ ρ d →
    ∃ d', Tree.consistency σ t r d = .ok (true, d') ∧ Below σ ρ d' := by
  intro t
  induction t using Tree.ind with
  | leaf s =>
    intro r ρ d h hd
    cases h with
    | rep s r ρ h =>
      simp only [Tree.consistency, StmtOps.consistency]
      exact consistencyGo_of _ _ _ hd (by simpa using h)
  | and sim subs ih =>
    intro r ρ d h hd
    cases h with
    | all sim subs r ρ ri hri h =>
      simp only [Tree.consistency]
      have key : ∀ (ts : List (Core E)) (i : Nat) (d : Dict (Val E)), (∀ t ∈ ts, t ∈ subs) →
          (∀ j, j < ts.length → r.index (i + j) = .ok (ri (i + j))) →
          (∀ j t, ts[j]? = some t → Agree σ t (ri (i + j)) ρ) → Below σ ρ d →
          ∃ d', Tree.consistencyAnd σ ts i r d = .ok (true, d') ∧ Below σ ρ d' := by
        intro ts
        induction ts with
        | nil => intro i d _ _ _ hd; exact ⟨d, rfl, hd⟩
        | cons t ts iht =>
          intro i d hmem h1 h2 hd
          have e0 : r.index i = .ok (ri i) := by simpa using h1 0 (by simp)
          obtain ⟨d1, hd1, hb1⟩ := ih t (hmem t (by simp)) (ri i) ρ d
            (by simpa using h2 0 t (by simp)) hd
          obtain ⟨d2, hd2, hb2⟩ := iht (i + 1) d1 (fun t h => hmem t (by simp [h]))
            (fun j hj => by
              have := h1 (j + 1) (by simp; omega)
              rw [show i + 1 + j = i + (j + 1) by omega]; exact this)
            (fun j t' ht => by
              have := h2 (j + 1) t' (by simpa using ht)
              rw [show i + 1 + j = i + (j + 1) by omega]; exact this) hb1
          refine ⟨d2, ?_, hb2⟩
          simp only [Tree.consistencyAnd, e0, bind_ok, hd1, if_true, hd2]
      exact key subs 0 d (fun _ h => h) (fun j hj => by simpa using hri j hj)
        (fun j t ht => by simpa using h j t ht) hd
  | or sim subs ih =>
    intro r ρ d h hd
    cases h with
    | any sim subs r rs ρ ri ρi hrs hri h =>
      simp only [Tree.consistency]
      have hb : ∀ (t : Core E) (i : Nat), subs[i]? = some t →
          ∃ d', Tree.consistency σ t (ri i) [] = .ok (true, d') := by
        intro t i ht
        obtain ⟨d', h1, _⟩ := ih t (List.mem_of_getElem? ht) (ri i) (ρi i) [] (h i t ht)
          (fun s v hv => by simp [Dict.get?] at hv)
        exact ⟨d', h1⟩
      have : Tree.consistencyOr σ subs 0 r = .ok true := by
        rw [consistencyOr_true]
        refine ⟨rs, ri, fun i => match subs[i]? with
          | some t => (match Tree.consistency σ t (ri i) [] with
            | .ok x => x.2
            | .error _ => [])
          | none => [], hrs, fun j hj => by simpa using hri j hj, ?_⟩
        intro j t ht
        obtain ⟨d', h1⟩ := hb t j ht
        simp only [ht, h1]
      rw [this]
      exact ⟨d, rfl, hd⟩

/-- **The consistency check is exactly agreement.** -/
theorem consistency_iff {σ : Store} {t : Core E} {r : Val E} :
    (∃ d', Tree.consistency σ t r [] = .ok (true, d')) ↔ ∃ ρ, Agree σ t r ρ := by
  constructor
  · rintro ⟨d', h⟩
    exact ⟨Dict.fn σ .none d', (agree_of_consistency t r [] d' h).2 _
      (fun s v hv => Dict.get?_fn hv)⟩
  · rintro ⟨ρ, h⟩
    obtain ⟨d', h1, _⟩ := consistency_of_agree t r ρ [] h (fun s v hv => by simp [Dict.get?] at hv)
    exact ⟨d', h1⟩

theorem occ_agree {σ : Store} {t : Core E} {r : Val E} {ρ : Key → Val E} {x : Sec} {v : Val E}
    (ho : Occ t r x v) (h : Agree σ t r ρ) : v = ρ (σ.key x) := by
  induction ho with
  | rep s r i x v hx hr =>
    cases h with
    | rep s r ρ h => have := h i x hx; rw [hr] at this; exact Except.ok.inj this
  | all sim subs r ri i t x v ht hr ho ih =>
    cases h with
    | all sim subs r ρ ri' hri h =>
      have hi := (List.getElem?_eq_some_iff.mp ht).1
      have := hri i hi
      rw [hr] at this; injection this with this; subst this
      exact ih (h i t ht)

theorem preVerification_core {σ : Store} {t : Core E} {r : Val E} :
    preVerification σ t r = .ok () ↔ ∃ ρ, Agree σ t r ρ := by
  unfold preVerification
  rw [validate_core]
  simp only [bind_ok]
  rw [← consistency_iff]
  constructor
  · intro h
    obtain ⟨⟨b, d⟩, hb, h⟩ := bind_ok_iff.mp h
    cases b with
    | false => simp at h
    | true => exact ⟨d, hb⟩
  · rintro ⟨d, h⟩
    rw [h]; rfl

end Zksk
