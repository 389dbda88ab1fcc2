import Verif.Props.BBS
import Verif.Props.Witness

/-! Blinded commitments as functions of the random stream. -/

set_option linter.unusedSectionVars false

namespace Zksk

open Spec Props

variable {E : Type} [AddCommGroup E] [DecidableEq E]

theorem knownValues_fresh {σ : Store} : ∀ (vs : List Sec) (d : Dict Int), (∀ x ∈ vs, σ.value x = none) →
    knownValues σ vs d = d
  | [], _, _ => rfl
  | x :: vs, d, h => by
    simp only [knownValues, h x (by simp)]
    exact knownValues_fresh vs d fun y hy => h y (by simp [hy])

theorem dedupGo_nodup {σ : Store} : ∀ (vs seen : List Sec), (vs.map σ.name).Nodup →
    (∀ x ∈ seen, ∀ y ∈ vs, σ.name x ≠ σ.name y) → Tree.dedupGo σ vs seen = vs
  | [], _, _, _ => rfl
  | v :: vs, seen, h, hs => by
    simp only [List.map_cons, List.nodup_cons] at h
    rw [Tree.dedupGo, if_neg, dedupGo_nodup vs (v :: seen) h.2]
    · intro x hx y hy he
      rcases List.mem_cons.mp hx with rfl | hx
      · exact h.1 (List.mem_map.mpr ⟨y, hy, he.symm⟩)
      · exact hs x hx y (by simp [hy]) he
    · simp only [List.any_eq_true, decide_eq_true_eq, not_exists, not_and]
      intro x hx he
      exact hs x hx v (by simp) (congrArg Prod.fst he)

/-- A prover who was given one value per secret of a representation, the names being different. -/
theorem knows_zip {σ : Store} {s : DLRep E} {xs : List Int} (hl : s.secretVars.length = s.bases.length)
    (hx : xs.length = s.secretVars.length) (hn : (s.secretVars.map σ.name).Nodup)
    (hg : ∀ b ∈ s.bases, b.grp = s.lhs.grp) (hlhs : s.lhs.val = lin xs s.bases) :
    Knows (.leaf s) σ (s.secretVars.zip xs) (Dict.fn σ 0 (s.secretVars.zip xs)) := by
  have hget : ∀ (i : Nat) (v : Sec), s.secretVars[i]? = some v →
      ∃ x, xs[i]? = some x ∧ Dict.get? σ (s.secretVars.zip xs) v = some x := by
    intro i v hv
    have hi : i < xs.length := by
      have := (List.getElem?_eq_some_iff.mp hv).1
      omega
    exact ⟨_, List.getElem?_eq_getElem hi, get?_zip _ xs hn i v _ hv (List.getElem?_eq_getElem hi)⟩
  refine ⟨uniq_zip _ _ hn, .rep _ ?_ (.rep _ _ hg ?_), .leaf _⟩
  · intro x hx
    obtain ⟨i, hi⟩ := List.getElem?_of_mem hx
    obtain ⟨y, _, hy⟩ := hget i x hi
    simp only [heapFor, given, hy, Dict.get?_fn (dflt := 0) hy]
    rfl
  · rw [hlhs]
    simp only [lin, heapFor]
    congr 1
    refine List.ext_getElem? fun i => ?_
    rw [List.getElem?_zipWith, List.getElem?_zipWith]
    cases hv : s.secretVars[i]? with
    | none =>
      rw [List.getElem?_eq_none_iff] at hv
      rw [List.getElem?_eq_none (l := xs) (by omega)]
    | some v =>
      obtain ⟨x, hx, hy⟩ := hget i v hv
      rw [hx]
      cases s.bases[i]? with
      | none => rfl
      | some b => simp only [Option.some.injEq]; rw [← Dict.get?_fn (dflt := 0) hy]

theorem seesSame_nodup {σ₁ σ₂ : Store} {vs : List Sec} (h₁ : (vs.map σ₁.name).Nodup) (h₂ : (vs.map σ₂.name).Nodup) :
    SeesSame σ₁ σ₂ vs := by
  refine ⟨⟨by simp, ?_⟩, ?_⟩
  · intro i j a b a' b' k1 k2 k3 k4
    have k1 := List.getElem?_eq_some_iff.mp k1
    have k2 := List.getElem?_eq_some_iff.mp k2
    have k3 := List.getElem?_eq_some_iff.mp k3
    have k4 := List.getElem?_eq_some_iff.mp k4
    rw [← k1.2, ← k2.2, ← k3.2, ← k4.2, h₁.getElem_inj_iff, h₂.getElem_inj_iff]
  · have key : ∀ σ : Store, (vs.map σ.name).Nodup → ∀ x ∈ vs, ∀ y ∈ vs, (σ.key x = σ.key y ↔ x = y) := by
      intro σ h x hx y hy
      refine ⟨fun he => List.inj_on_of_nodup_map h hx hy (congrArg Prod.fst he), fun he => by rw [he]⟩
    intro x hx y hy
    rw [key _ h₁ x hx y hy, key _ h₂ x hx y hy]

/-- Proofs of one representation from different lists of values. -/
theorem rep_proofs_coincide (env : Env E) (s : DLRep E) (msg : String) (q : Nat) (hq : s.lhs.grp.order = q) (hq0 : q ≠ 0)
    (hl : s.secretVars.length = s.bases.length) (hne : s.bases ≠ [])
    (hg : ∀ b ∈ s.bases, b.grp = s.lhs.grp ∧ (q : Int) • b.val = 0) (σ₁ σ₂ : Store)
    (hn₁ : (s.secretVars.map σ₁.name).Nodup) (hn₂ : (s.secretVars.map σ₂.name).Nodup) (xs₁ xs₂ : List Int)
    (hl₁ : xs₁.length = s.secretVars.length) (hl₂ : xs₂.length = s.secretVars.length)
    (h₁ : s.lhs.val = lin xs₁ s.bases) (h₂ : s.lhs.val = lin xs₂ s.bases) (n : Nat) (hn : s.secretVars.length = n) :
    ∃ e : Equiv.Perm (Fin n → Fin q), ∀ (x : Fin n → Fin q) (rest : Nat → Nat), ∃ nizk t₁ t₂,
      prove (DLRepProver E) env (.leaf s) (s.secretVars.zip xs₁) msg ⟨σ₁, tape x rest⟩ = .ok ((nizk, t₁), ⟨σ₁, rest⟩) ∧
      prove (DLRepProver E) env (.leaf s) (s.secretVars.zip xs₂) msg ⟨σ₂, tape (e x) rest⟩ = .ok ((nizk, t₂), ⟨σ₂, rest⟩) := by
  subst hq
  have hlen : (table (heapFor σ₁ (s.secretVars.zip xs₁) (.leaf s)) (.leaf s)).length = n := by
    simp only [table, heapFor, List.length_map]
    rw [dedupGo_nodup _ _ hn₁ (by simp), hn]
  have := proofs_coincide env (.leaf s) msg s.lhs.grp.order hq0 (by
      intro x b hx
      rw [(hg b (List.of_mem_zip hx).2).1]) ⟨hl, hne, fun b hb => (hg b hb).1, hq0⟩ (by
      intro x b hx
      obtain ⟨k1, k2⟩ := hg b (List.of_mem_zip hx).2
      rw [k1]; exact k2) (.rep _) σ₁ σ₂ _ _ _ _ (knows_zip hl hl₁ hn₁ (fun b hb => (hg b hb).1) h₁)
      (knows_zip hl hl₂ hn₂ (fun b hb => (hg b hb).1) h₂)
      (seesSame_nodup hn₁ hn₂)
  rw [hlen] at this
  exact this

/-- Enough is known of a commitment to a list of multiples. -/
theorem lin_multiples {h : E} : ∀ {gs : List (Pt E)}, (∀ g ∈ gs, ∃ a : Int, g.val = a • h) → ∀ ms : List Int,
    ∃ z : Int, lin ms gs = z • h
  | [], _, ms => ⟨0, by cases ms <;> simp [lin]⟩
  | g :: gs, hg, [] => ⟨0, by simp [lin]⟩
  | g :: gs, hg, m :: ms => by
    obtain ⟨a, ha⟩ := hg g (by simp)
    obtain ⟨z, hz⟩ := lin_multiples (gs := gs) (fun g hg' => hg g (by simp [hg'])) ms
    refine ⟨m * a + z, ?_⟩
    simp only [lin] at hz
    simp only [lin, List.zipWith_cons_cons, List.sum_cons, hz, ha, add_smul, smul_smul]

/-- A blinded commitment: the first random number blinds, then the proof is made. -/
theorem commit_run {P : Pairing E} {env : Env E} {c : Creator E} (hk : GoodKey P c.pk)
    (hord : P.order ≠ 0) {g0 g1 : Pt E} {gs : List (Pt E)} (hg : c.pk.generators = g0 :: g1 :: gs) {ms : List Int} {n : Nat}
    (hn : ms.length = n) (hlen : n ≤ gs.length) {next : Nat} {w : World}
    (hnone : ∀ x ∈ freshSecs next (n + 1), w.store.value x = none) {s1 : Int}
    (hs1 : s1 = ((w.rng 0 % P.order : Nat) : Int)) {lhs : Pt E} (hlhs : lhs = ⟨P.G1, s1 • g1.val + lin ms gs⟩)
    {nizk : NIZK E} {t' : Core E} {w' : World}
    (hp : prove (DLRepProver E) env (.leaf ⟨lhs, g1 :: gs.take n,
      freshSecs next (n + 1), [], false⟩) ((freshSecs next (n + 1)).zip (s1 :: ms)) ""
      ⟨w.store, fun i => w.rng (i + 1)⟩ = .ok ((nizk, t'), w')) :
    c.commit env ms true next w = .ok ((⟨lhs, some nizk⟩, ⟨c.pk, some s1⟩), w') := by
  subst hn
  have hgr := hk.g1
  rw [hg] at hgr
  have h0 := hgr g0 (by simp)
  have h1 := hgr g1 (by simp)
  unfold Creator.commit
  have e0 : listAt c.pk.generators 0 = .ok g0 := by rw [listAt_ok, hg]; rfl
  have e1 : listAt c.pk.generators 1 = .ok g1 := by rw [listAt_ok, hg]; rfl
  have e2 : (c.pk.generators.drop 2).take ms.length = gs.take ms.length := by rw [hg]; rfl
  have e3 : g0.grp.wsum (ms.map .int) (gs.take ms.length) = .ok ⟨P.G1, lin ms gs⟩ := by
    rw [h0, wsum_lin rfl _ _ (fun p hp => hgr p (by simp [List.mem_of_mem_take hp])), lin_take _ _ _ le_rfl]
  have e4 : (c.pk.generators.drop 1).take (ms.length + 1) = g1 :: gs.take ms.length := by rw [hg]; rfl
  rw [e0, e2]
  simp only [pm_liftE_bind]
  rw [e3]
  simp only [pm_liftE_bind]
  have hd : draw g0.grp.order w = .ok (s1, ⟨w.store, fun i => w.rng (i + 1)⟩) := by
    unfold draw
    rw [h0, if_neg (show ¬ P.G1.order = 0 from hord), hs1]
    rfl
  rw [pm_bind_eq hd, e1]
  simp only [pm_liftE_bind]
  rw [pt_add_of (by rw [Pt.smul, h1])]
  simp only [pm_liftE_bind]
  rw [pm_getStore_bind, e4]
  rw [repOf_of (g := P.G1) (by simp [freshSecs, hlen]) (by simp) (by
    intro b hb
    rcases List.mem_cons.mp hb with rfl | hb
    · exact h1
    · exact hgr b (by simp [List.mem_of_mem_take hb])), knownValues_fresh _ _ hnone]
  simp only [pm_liftE_bind]
  have hcom : ({ grp := (Pt.smul s1 g1).grp, val := (Pt.smul s1 g1).val + lin ms gs } : Pt E) = lhs := by
    simp [Pt.smul, h1, hlhs]
  rw [hcom, pm_bind_eq hp]
  rfl

end Zksk
