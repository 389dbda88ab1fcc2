import Verif.Lemmas.Range
import Verif.Lemmas.Select

/-! Runs of provers of range proofs. -/

set_option linter.unusedSectionVars false

namespace Zksk

open Spec

variable {E : Type} [AddCommGroup E] [DecidableEq E]

theorem heapFor_and (σ : Store) (d : Dict Int) (b : Bool) (subs : List (Core E)) :
    heapFor σ d (.and b subs : Core E) = updateSecretValues σ d :=
  heapFor_eq _ _ (by simp)

/-- The heap after `get_prover()` of a conjunction. -/
theorem getProver_store {b : Bool} {subs : List (Core E)} {d : Dict Int} {r : Option (CoreProver E) × Core E}
    {w w' : World} (hwf : WellFormed (.and b subs)) (h : PTree.getProver (.and b subs) d w = .ok (r, w')) :
    w'.store = updateSecretValues w.store d := by
  rw [getProver_heap (by simp), heapFor_and] at h
  obtain ⟨p?, t'⟩ := r
  exact (getProver_frame (updateSecretValues_idem _ _) hwf rfl h).1

/-- Constructed statements are conjunctions. -/
def ToAnd (e : ExtSpec E) : Prop :=
  ∀ σ v k, e.construct σ v = .ok k → WellFormed k ∧ ∃ subs, k = .and false subs

/-- What a successful precommitment of an extended prover consists of. -/
theorem ext_precommit_inv {p p' : ExtProver E} {v : Val E} {w w' : World} (he : ToAnd p.stmt.spec)
    (h : ExtProver.precommit p w = .ok ((v, p'), w')) :
    ∃ w1 k, p.stmt.spec.precommit w = .ok (v, w1) ∧ p.stmt.spec.construct w1.store v = .ok k ∧
      w'.store = updateSecretValues w1.store p.secretValues := by
  unfold ExtProver.precommit at h
  obtain ⟨v1, w1, h1, h⟩ := pm_bind.mp h
  rw [pm_getStore_bind, pm_liftE_bind_iff] at h
  obtain ⟨s', h2, h⟩ := h
  unfold Ext.fullConstruct at h2
  obtain ⟨k, hk, h3⟩ := bind_ok_iff.mp h2
  injection h3 with h3; subst h3
  clear h2
  rw [pm_liftE_bind_iff] at h
  obtain ⟨k', h3, h⟩ := h
  simp only [Ext.inner, Except.ok.injEq] at h3
  subst h3
  obtain ⟨⟨cp, t'⟩, w2, h4, h⟩ := pm_bind.mp h
  simp only at h
  rw [pm_pure_iff] at h
  simp only [Prod.mk.injEq] at h
  obtain ⟨⟨rfl, _⟩, rfl⟩ := h
  obtain ⟨hwf, subs, rfl⟩ := he _ _ _ hk
  exact ⟨w1, _, h1, hk, getProver_store hwf h4⟩

theorem getProver_ext (e : Ext E) (d : Dict Int) (w : World) :
    (PTree.getProver (.leaf (.ext e)) d : PM (Option (StmtProver E) × Stmt E)) w =
      .ok ((some (.leaf (.ext ⟨e, d, none⟩)), .leaf (.ext e)), { w with store := updateSecretValues w.store d }) :=
  rfl

theorem getProver_rep {c : DLRep E} {d : Dict Int} {w w' : World} {p? : Option (StmtProver E)} {t' : Stmt E}
    (h : PTree.getProver (.leaf (.dlrep c)) d w = .ok ((p?, t'), w')) :
    w' = w ∧ ∀ p, p? = some p → ∃ q, p = .leaf (.dlrep q) := by
  simp only [PTree.getProver, ProverOps.getProver] at h
  obtain ⟨⟨q0, t0⟩, w0, h0, h⟩ := pm_bind.mp h
  obtain ⟨⟨q1, t1⟩, w1, h1, h0⟩ := pm_bind.mp h0
  have e1 : w1 = w := by
    unfold DLRepProver.getProver at h1
    rw [pm_getStore_bind] at h1
    split at h1
    · rw [pm_pure_iff] at h1; rw [← (Prod.mk.inj h1).2]
    · rw [pm_pure_iff] at h1; rw [← (Prod.mk.inj h1).2]
  simp only at h h0
  rw [pm_pure_iff] at h h0
  simp only [Prod.mk.injEq] at h h0
  obtain ⟨⟨rfl, _⟩, rfl⟩ := h
  obtain ⟨⟨rfl, _⟩, rfl⟩ := h0
  refine ⟨e1, fun p hp => ?_⟩
  cases q1 with
  | none => simp at hp
  | some q => exact ⟨q, by simpa using hp.symm⟩

/-- A run of `prove()` on `A & B & C` with two extended statements `B`, `C` precommits for both. -/
theorem prove_two_ext {env : Env E} {c : DLRep E} {e1 e2 : Ext E} (h1 : ToAnd e1.spec) (h2 : ToAnd e2.spec)
    {d : Dict Int} {msg : String} {w : World} {out}
    (h : prove (LeafProver E) env
      (.and false [.leaf (.dlrep c), .leaf (.ext e1), .leaf (.ext e2)]) d msg w = .ok out) :
    ∃ w1 v1 w1' k1 w2 v2 w2' k2, w1.store = updateSecretValues w.store d ∧
      e1.spec.precommit w1 = .ok (v1, w1') ∧ e1.spec.construct w1'.store v1 = .ok k1 ∧
      w2.store = updateSecretValues w1'.store d ∧
      e2.spec.precommit w2 = .ok (v2, w2') ∧ e2.spec.construct w2'.store v2 = .ok k2 ∧
      out.1.1.precommitment = PTree.andPrecommitment [.none, v1, v2] := by
  unfold prove at h
  obtain ⟨⟨p?, t1⟩, w1, hp, h⟩ := pm_bind.mp h
  rw [PTree.getProver] at hp
  rw [pm_getStore_bind, pm_setStore_bind] at hp
  simp only [Bool.false_eq_true, if_false] at hp
  obtain ⟨⟨ps, ts⟩, w2, hp1, hp2⟩ := pm_bind.mp hp
  simp only [PTree.getProverL] at hp1
  obtain ⟨⟨q0, t0⟩, wa, ha, hp1⟩ := pm_bind.mp hp1
  obtain ⟨hwa, hq⟩ := getProver_rep ha
  have hev : (do
      let __x ← PTree.getProver (Tree.leaf (Leaf.ext e1)) d
      let __y ← (do
        let __z ← PTree.getProver (Tree.leaf (Leaf.ext e2)) d
        pure ([__z.1], [__z.2]))
      pure (__x.1 :: __y.1, __x.2 :: __y.2) : PM (List (Option (StmtProver E)) × List (Stmt E))) wa =
      .ok (([some (.leaf (.ext ⟨e1, d, none⟩)), some (.leaf (.ext ⟨e2, d, none⟩))],
        [.leaf (.ext e1), .leaf (.ext e2)]),
        { wa with store := updateSecretValues (updateSecretValues wa.store d) d }) := rfl
  obtain ⟨⟨qs, ts1⟩, wb, hb, hp1⟩ := pm_bind.mp hp1
  have hb' := hev.symm.trans hb
  simp only [Except.ok.injEq, Prod.mk.injEq] at hb'
  obtain ⟨⟨rfl, _⟩, hwb⟩ := hb'
  simp only at hp1
  rw [pm_pure_iff] at hp1
  simp only [Prod.mk.injEq] at hp1
  obtain ⟨⟨rfl, _⟩, rfl⟩ := hp1
  simp only at hp2
  cases q0 with
  | none => simp only [PTree.allSome] at hp2; exact (raise_ne.mp hp2).elim
  | some q =>
    obtain ⟨q, rfl⟩ := hq _ rfl
    simp only [PTree.allSome, Option.map_some] at hp2
    rw [pm_pure_iff] at hp2
    simp only [Prod.mk.injEq] at hp2
    obtain ⟨⟨rfl, _⟩, rfl⟩ := hp2
    simp only at h
    obtain ⟨⟨nizk, p'⟩, wc, hc, hout⟩ := pm_bind.mp h
    rw [pm_pure_iff] at hout
    subst hout
    unfold PTree.getNizkProof at hc
    obtain ⟨⟨v, p1⟩, wd, hd, hc⟩ := pm_bind.mp hc
    obtain ⟨⟨com, p2⟩, w3, _, hc⟩ := pm_bind.mp hc
    simp only at hc
    rw [pm_getStore_bind, pm_liftE_bind_iff] at hc
    obtain ⟨id, _, hc⟩ := hc
    rw [pm_liftE_bind_iff] at hc
    obtain ⟨ch, _, hc⟩ := hc
    obtain ⟨r, w4, _, hc⟩ := pm_bind.mp hc
    rw [pm_pure_iff, Prod.mk.injEq, Prod.mk.injEq] at hc
    obtain ⟨⟨rfl, _⟩, _⟩ := hc
    rw [PTree.precommit] at hd
    obtain ⟨⟨vs, ps⟩, we, he, hd⟩ := pm_bind.mp hd
    rw [pm_pure_iff, Prod.mk.injEq, Prod.mk.injEq] at hd
    obtain ⟨⟨rfl, _⟩, _⟩ := hd
    simp only [PTree.precommitL, PTree.precommit, ProverOps.precommit] at he
    obtain ⟨⟨v0, p0⟩, w0, he0, he⟩ := pm_bind.mp he
    have he0' : (Except.ok ((Val.none, PTree.leaf (LeafProver.dlrep q)), wb) : Except Err ((Val E × StmtProver E) × World)) =
      .ok ((v0, p0), w0) := he0
    simp only [Except.ok.injEq, Prod.mk.injEq] at he0'
    obtain ⟨⟨rfl, _⟩, rfl⟩ := he0'
    obtain ⟨⟨l1, _⟩, _, he1, hl1⟩ := pm_bind.mp he
    rw [pm_pure_iff, Prod.mk.injEq, Prod.mk.injEq] at hl1
    obtain ⟨⟨rfl, _⟩, _⟩ := hl1
    obtain ⟨⟨va, pa⟩, wf, he2, he3⟩ := pm_bind.mp he1
    obtain ⟨⟨_, _⟩, _, he4, he5⟩ := pm_bind.mp he2
    obtain ⟨⟨v1, p1⟩, w1, he6, he7⟩ := pm_bind.mp he4
    rw [pm_pure_iff, Prod.mk.injEq, Prod.mk.injEq] at he5 he7
    obtain ⟨⟨rfl, _⟩, rfl⟩ := he7
    obtain ⟨⟨rfl, _⟩, rfl⟩ := he5
    obtain ⟨⟨l2, _⟩, _, he8, hl2⟩ := pm_bind.mp he3
    rw [pm_pure_iff, Prod.mk.injEq, Prod.mk.injEq] at hl2
    obtain ⟨⟨rfl, _⟩, _⟩ := hl2
    obtain ⟨⟨_, _⟩, _, he9, he10⟩ := pm_bind.mp he8
    obtain ⟨⟨_, _⟩, _, he11, he12⟩ := pm_bind.mp he9
    obtain ⟨⟨v2, p2⟩, w2, he13, he14⟩ := pm_bind.mp he11
    obtain ⟨⟨_, _⟩, _, he15, he16⟩ := pm_bind.mp he10
    rw [pm_pure_iff, Prod.mk.injEq, Prod.mk.injEq] at he12 he14 he15 he16
    obtain ⟨⟨rfl, _⟩, _⟩ := he14
    obtain ⟨⟨rfl, _⟩, _⟩ := he12
    obtain ⟨⟨rfl, _⟩, _⟩ := he15
    obtain ⟨⟨rfl, _⟩, _⟩ := he16
    obtain ⟨wg, k1, i1, i2, i3⟩ := ext_precommit_inv h1 he6
    obtain ⟨wh, k2, j1, j2, j3⟩ := ext_precommit_inv h2 he13
    refine ⟨_, v1, wg, k1, _, v2, wh, k2, ?_, i1, i2, i3, j1, j2, rfl⟩
    rw [← hwb, hwa]
    show updateSecretValues (updateSecretValues (updateSecretValues w.store d) d) d = _
    rw [updateSecretValues_idem, updateSecretValues_idem]

namespace PowerTwo

theorem mem_build {σ : Store} {s : PowerTwo E} : ∀ (rands : List Sec) (cs : List (Pt E)) (bits : Option (List Int))
    (t : Core E), t ∈ build σ s cs rands bits →
    ∃ c ∈ cs, ∃ rand ∈ rands, ∃ bit, t = .or false (clauses σ s c rand bit)
  | [], cs, bits, t, h => by simp [build] at h
  | r :: rands, [], bits, t, h => by simp [build] at h
  | r :: rands, c :: cs, none, t, h => by
    simp only [build, List.mem_cons] at h
    rcases h with rfl | h
    · exact ⟨c, by simp, r, by simp, _, rfl⟩
    · obtain ⟨c', hc, r', hr, b, rfl⟩ := mem_build rands cs none t h
      exact ⟨c', by simp [hc], r', by simp [hr], b, rfl⟩
  | r :: rands, c :: cs, some [], t, h => by simp [build] at h
  | r :: rands, c :: cs, some (b0 :: bs), t, h => by
    simp only [build, List.mem_cons] at h
    rcases h with rfl | h
    · exact ⟨c, by simp, r, by simp, _, rfl⟩
    · obtain ⟨c', hc, r', hr, b, rfl⟩ := mem_build rands cs (some bs) t h
      exact ⟨c', by simp [hc], r', by simp [hr], b, rfl⟩

theorem build_length {σ : Store} {s : PowerTwo E} : ∀ (rands : List Sec) (cs : List (Pt E))
    (bits : Option (List Int)), cs.length = rands.length → (∀ bs, bits = some bs → rands.length ≤ bs.length) →
    (build σ s cs rands bits).length = rands.length
  | [], [], bits, _, _ => by simp [build]
  | r :: rands, c :: cs, none, h1, _ => by
    simp [build, build_length rands cs none (by simpa using h1) (by simp)]
  | r :: rands, c :: cs, some [], h1, h2 => by
    have := h2 [] rfl
    simp at this
  | r :: rands, c :: cs, some (b :: bs), h1, h2 => by
    simp [build, build_length rands cs (some bs) (by simpa using h1) (fun bs' h => by
      injection h with h; subst h
      simpa using h2 (b :: bs) rfl)]

theorem wfL_of {ts : List (Core E)} (h : ∀ t ∈ ts, WellFormed t) : WellFormedL ts := by
  induction ts with
  | nil => trivial
  | cons t ts ih => exact ⟨h t (by simp), ih fun t ht => h t (by simp [ht])⟩

theorem toAnd (s : PowerTwo E) : ToAnd s.spec := by
  intro σ v k h
  obtain ⟨hn, cs, bits, h1, _, _, h2, rfl⟩ := construct_inv (s := s) h
  refine ⟨⟨?_, wfL_of fun t ht => ?_⟩, _, rfl⟩
  · intro he
    have := build_length (σ := σ) (s := s) s.rands cs bits h1 h2
    rw [he] at this
    simp only [List.length_nil] at this
    unfold numBits at hn
    omega
  · obtain ⟨c, _, r, _, b, rfl⟩ := mem_build _ _ _ _ ht
    simp [clauses, WellFormed, WellFormedL]

theorem setValue_key {σ : Store} {s x : Sec} {v : Int} (h : x ≠ s) : (σ.setValue s v).key x = σ.key x := by
  simp [Store.key, Store.setValue, h]

theorem setValue_value {σ : Store} {s x : Sec} {v : Int} :
    (σ.setValue s v).value x = if x = s then some v else σ.value x := rfl

theorem drawRands_frame {m : Nat} : ∀ (ss : List Sec) {w w' : World}, drawRands m ss w = .ok ((), w') →
    ∀ x, x ∉ ss → w'.store.key x = w.store.key x
  | [], w, w', h, x, _ => by
    simp only [drawRands] at h
    rw [pm_pure_iff] at h
    rw [← (Prod.mk.inj h).2]
  | s :: ss, w, w', h, x, hx => by
    simp only [drawRands] at h
    obtain ⟨v, w1, h1, h⟩ := pm_bind.mp h
    rw [pm_getStore_bind, pm_setStore_bind] at h
    have := drawRands_frame ss h x (fun hm => hx (by simp [hm]))
    rw [this]
    simp only [List.mem_cons, not_or] at hx
    rw [setValue_key hx.1, (draw_ok h1).2.2.2]

/-- `precommit()` changes only the randomizers. -/
theorem precommit_frame {s : PowerTwo E} {w w' : World} {v : Val E} (h : s.precommit w = .ok (v, w')) :
    ∀ x, x ∉ s.rands → w'.store.key x = w.store.key x := by
  unfold precommit at h
  rw [pm_getStore_bind, pm_liftE_bind_iff] at h
  obtain ⟨x, _, h⟩ := h
  rw [pm_liftE_bind_iff] at h
  obtain ⟨bits, _, h⟩ := h
  obtain ⟨_, w1, h1, h⟩ := pm_bind.mp h
  rw [pm_getStore_bind, pm_liftE_bind_iff] at h
  obtain ⟨_, _, h⟩ := h
  rw [pm_liftE_bind_iff] at h
  obtain ⟨_, _, h⟩ := h
  rw [pm_liftE_bind_iff] at h
  obtain ⟨_, _, h⟩ := h
  rw [pm_pure_iff] at h
  rw [← (Prod.mk.inj h).2]
  exact drawRands_frame _ h1

/-- `precommit()` raises when the value has no representation. -/
theorem precommit_error {s : PowerTwo E} {w : World} {x : Int} (hp : s.isProver = true)
    (hx : w.store.value s.x = some x) (hr : x < 0 ∨ 2 ^ s.numBits ≤ x) : s.precommit w = .error .generic := by
  unfold precommit
  rw [pm_getStore_bind]
  simp only [value, hp, if_true, hx]
  rw [pm_liftE_bind, decompose_error hr]
  rfl

theorem construct_small {s : PowerTwo E} {σ : Store} {v : Val E} {k : Core E} (h : s.construct σ v = .ok k) :
    2 ≤ s.numBits := (construct_inv h).1

end PowerTwo

/-- What `RangeStmt(...)` returns. -/
theorem rangeStmt_ok {σ σ1 : Store} {com g h : Pt E} {a b : Int} {x r : Sec} {next : Nat} {t : Stmt E}
    (hs : rangeStmt σ com g h a b x r next = .ok (σ1, t)) :
    ∃ c com1 com2, com.grp = g.grp ∧ h.grp = g.grp ∧ σ1 = rangeStore σ a b x next (next + 1) ∧
      c = ⟨com, [g, h], [x, r], knownValues σ1 [x, r] [], false⟩ ∧
      com1 = ⟨g.grp, com.val - a • g.val⟩ ∧ com2 = ⟨g.grp, com.val - a • g.val + rangeOffset a b • g.val⟩ ∧
      t = .and false [.leaf (.dlrep c),
        (mkPowerTwo σ1 com1 g h next r (freshSecs (next + 2) (rangeBits a b))).stmt,
        (mkPowerTwo σ1 com2 g h (next + 1) r (freshSecs (next + 2 + rangeBits a b) (rangeBits a b))).stmt] := by
  unfold rangeStmt at hs
  obtain ⟨com1, h1, hs⟩ := bind_ok_iff.mp hs
  obtain ⟨com2, h2, hs⟩ := bind_ok_iff.mp hs
  obtain ⟨c, h3, hs⟩ := bind_ok_iff.mp hs
  obtain ⟨t1, h4, hs⟩ := bind_ok_iff.mp hs
  obtain ⟨t2, h5, hs⟩ := bind_ok_iff.mp hs
  injection hs with hs
  obtain ⟨rfl, rfl⟩ := Prod.mk.inj hs
  obtain ⟨rfl, _, hg⟩ := mkDLRep_ok h3
  unfold Pt.sub Pt.add at h1
  split at h1
  · rename_i hc
    injection h1 with h1
    simp only [Pt.smul] at hc h1
    subst h1
    unfold Pt.add at h2
    rw [if_pos (by exact hc)] at h2
    injection h2 with h2
    subst h2
    simp only [opAnd, mkAnd, PowerTwo.stmt, List.length_cons, List.length_nil] at h4
    simp only [Except.ok.injEq, if_neg (show ¬ (0 + 1 + 1 < 2) by omega)] at h4
    subst h4
    simp only [opAnd, mkAnd, PowerTwo.stmt] at h5
    simp only [List.cons_append, List.nil_append, List.length_cons, List.length_nil, Except.ok.injEq,
      if_neg (show ¬ (0 + 1 + 1 + 1 < 2) by omega)] at h5
    refine ⟨_, _, _, hc, hg _ (by simp) _ (by simp), rfl, rfl, rfl, rfl, ?_⟩
    subst h5
    simp [PowerTwo.stmt, Pt.smul, hc, sub_eq_add_neg]
  · cases h1

theorem rangeStmt_exists {σ : Store} {com g h : Pt E} {a b : Int} {x r : Sec} {next : Nat}
    (hc : com.grp = g.grp) (hh : h.grp = g.grp) :
    ∃ t, rangeStmt σ com g h a b x r next = .ok (rangeStore σ a b x next (next + 1), t) := by
  unfold rangeStmt
  simp only [Pt.sub, Pt.add, Pt.smul, hc, if_true, bind_ok]
  rw [mkDLRep_of (g := g.grp) (by simp) (by simp [hh])]
  simp only [bind_ok, opAnd, mkAnd, PowerTwo.stmt]
  exact ⟨_, rfl⟩

theorem mem_freshSecs {next n x : Nat} : x ∈ freshSecs next n ↔ next ≤ x ∧ x < next + n := by
  unfold freshSecs
  rw [List.mem_map]
  constructor
  · rintro ⟨i, hi, rfl⟩
    rw [List.mem_range] at hi
    omega
  · rintro ⟨h1, h2⟩
    exact ⟨x - next, by rw [List.mem_range]; omega, by omega⟩

end Zksk
